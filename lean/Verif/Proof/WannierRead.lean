import Verif.Proof.Wannier

/-! # Proofs about the Wannier90 interface: reading the files -/

namespace Verif.Wannier

theorem mapM_ok {α β γ ε : Type*} (f : β → Except ε γ) (g : α → β) (h : α → γ) (l : List α)
    (hf : ∀ x ∈ l, f (g x) = .ok (h x)) : (l.map g).mapM f = .ok (l.map h) := by
  induction l with
  | nil => rfl
  | cons x l ih =>
    rw [List.map_cons, List.mapM_cons, hf x List.mem_cons_self,
      ih fun y hy => hf y (List.mem_cons_of_mem _ hy)]
    rfl

theorem hopLine_ok (t : (Cell × Pair) × ℂ) :
    hopLine (indexLine t.1 ++ [.num t.2.re, .num t.2.im]) = .ok t := by
  obtain ⟨⟨⟨a, b, c⟩, i, j⟩, e⟩ := t
  simp [indexLine, cellLine, hopLine, Tok.toInt, Tok.toFloat, bind, Except.bind]

theorem readHop_ok (comment : Line) (n : ℤ) (deg : List ℤ) (table : List ((Cell × Pair) × ℂ)) :
    readHop (hrFile comment n deg table) = .ok (table.map Prod.fst, table.map Prod.snd) := by
  have hskip : (3 + -((-(deg.length : ℤ)).fdiv 15)) = ((3 + (deg.length + 14) / 15 : ℕ) : ℤ) := by
    rw [Int.fdiv_eq_ediv_of_nonneg _ (by norm_num)]
    push_cast
    omega
  have hlen : (degLines deg).length = (deg.length + 14) / 15 := by simp [degLines]
  have hdrop : sliceFrom (hrFile comment n deg table) ((3 + (deg.length + 14) / 15 : ℕ) : ℤ) =
      table.map fun t => indexLine t.1 ++ [.num t.2.re, .num t.2.im] := by
    unfold sliceFrom
    rw [if_pos (by positivity), Int.toNat_natCast, Nat.add_comm]
    unfold hrFile
    simp only [List.drop_succ_cons]
    rw [← hlen, List.drop_left]
  unfold readHop
  have h2 : (hrFile comment n deg table)[2]? = some [.int deg.length] := by simp [hrFile]
  simp only [h2, Tok.toInt, bind, Except.bind, hskip, hdrop]
  rw [mapM_ok hopLine _ id table (fun t _ => hopLine_ok t)]
  simp

theorem keyLine_ok (x : Cell × Pair) : keyLine (indexLine x) = .ok x := by
  obtain ⟨⟨a, b, c⟩, i, j⟩ := x
  simp [indexLine, cellLine, keyLine, Tok.toInt, bind, Except.bind]

theorem vecLine_ok (R : Cell) : vecLine (cellLine R) = .ok R := by
  obtain ⟨a, b, c⟩ := R
  rfl

theorem vecs_fold (d : PyDict (Cell × Pair) (List Cell)) (key : Cell × Pair) (vs : List Cell) :
    ∀ (v : Cell) (acc : List Cell),
    ((v :: vs).map cellLine).foldlM wsLine (.vecs d key vs.length acc) =
      .ok (.ready (PyDict.set d key (acc ++ v :: vs))) := by
  induction vs with
  | nil =>
    intro v acc
    simp [wsLine, vecLine_ok, bind, Except.bind, pure, Except.pure]
  | cons w vs ih =>
    intro v acc
    have := ih w (acc ++ [v])
    rw [List.map_cons, List.foldlM_cons]
    simp only [wsLine, vecLine_ok, bind, Except.bind, List.length_cons] at this ⊢
    rw [this]
    simp

theorem block_fold (d : PyDict (Cell × Pair) (List Cell)) (q : (Cell × Pair) × List Cell) :
    (indexLine q.1 :: [Tok.int q.2.length] :: q.2.map cellLine).foldlM wsLine (.ready d) =
      .ok (.ready (PyDict.set d q.1 q.2)) := by
  simp only [List.foldlM_cons, wsLine, keyLine_ok, bind, Except.bind, Tok.toInt, Int.toNat_natCast]
  cases hq : q.2 with
  | nil => simp [pure, Except.pure]
  | cons v vs =>
    have := vecs_fold d q.1 vs v []
    simpa using this

theorem ws_fold (ws : List ((Cell × Pair) × List Cell)) :
    ∀ d : PyDict (Cell × Pair) (List Cell), (PyDict.keys (d ++ ws)).Nodup →
    (ws.flatMap fun q => indexLine q.1 :: [Tok.int q.2.length] :: q.2.map cellLine).foldlM wsLine
      (.ready d) = .ok (.ready (d ++ ws)) := by
  induction ws with
  | nil => intro d _; simp [pure, Except.pure]
  | cons q ws ih =>
    intro d hd
    have hq : q.1 ∉ PyDict.keys d := by
      intro h
      simp only [PyDict.keys, List.map_append, List.map_cons] at hd
      exact (List.disjoint_of_nodup_append hd) h (by simp)
    rw [List.flatMap_cons, List.foldlM_append, block_fold, PyDict.set_of_not_mem hq]
    have := ih (d ++ [(q.1, q.2)]) (by simpa using hd)
    simpa [bind, Except.bind] using this

theorem readWsvec_ok (comment : Line) (ws : List ((Cell × Pair) × List Cell))
    (h : (PyDict.keys ws).Nodup) : readWsvec (wsvecFile comment ws) = .ok ws := by
  unfold readWsvec wsvecFile
  have := ws_fold ws [] (by simpa using h)
  simp only [this, bind, Except.bind, List.nil_append]

theorem floats3 (v : Vec3 ℝ) : (vecLine3 v).mapM Tok.toFloat = .ok [v 0, v 1, v 2] := rfl

theorem vec3_eta (v : Vec3 ℝ) : ![v 0, v 1, v 2] = v := by
  funext i
  fin_cases i <;> rfl

theorem orbPos_ok (sites : List (String × Vec3 ℝ)) :
    orbPosLoop (sites.map fun s => .word s.1 :: vecLine3 s.2) =
      .ok ((sites.filter fun s => s.1 = "X").map fun s => [s.2 0, s.2 1, s.2 2]) := by
  induction sites with
  | nil => rfl
  | cons s sites ih =>
    rw [List.map_cons, orbPosLoop, ih]
    by_cases h : s.1 = "X"
    · simp [h, floats3, bind, Except.bind]
    · simp [h]

theorem readOrbPos_ok (head comment : Line) (sites : List (String × Vec3 ℝ)) :
    readOrbPos (centresFile head comment sites) =
      .ok ((sites.filter fun s => s.1 = "X").map Prod.snd) := by
  unfold readOrbPos centresFile
  simp only [List.drop_succ_cons, List.drop_zero, orbPos_ok, bind, Except.bind]
  rw [mapM_ok _ _ Prod.snd]
  intro s _
  simp only [PrimCell.vecOfList, vec3_eta]

theorem plain_not {l : Line} (h : Plain l) : isBegin l = false ∧ isEnd l = false := by
  unfold isBegin isEnd
  constructor
  · split
    · rename_i a b rest
      have := (h rest).1
      by_contra hc
      simp only [Bool.not_eq_false, Bool.and_eq_true, beq_iff_eq] at hc
      exact this (by rw [hc.1, hc.2])
    · rfl
  · split
    · rename_i a b rest
      have := (h rest).2
      by_contra hc
      simp only [Bool.not_eq_false, Bool.and_eq_true, beq_iff_eq] at hc
      exact this (by rw [hc.1, hc.2])
    · rfl

theorem winBounds_plain (ls rest : List Line) : ∀ (n : ℕ) (st : ℕ × ℕ), (∀ l ∈ ls, Plain l) →
    winBounds n st (ls ++ rest) = winBounds (n + ls.length) st rest := by
  induction ls with
  | nil => intro n st _; rfl
  | cons l ls ih =>
    intro n st h
    obtain ⟨h1, h2⟩ := plain_not (h l List.mem_cons_self)
    rw [List.cons_append, winBounds, h1, h2]
    simp only [Bool.false_eq_true, if_false]
    rw [ih (n + 1) st fun x hx => h x (List.mem_cons_of_mem _ hx)]
    congr 1
    simp only [List.length_cons]
    omega

theorem plain_num (x : ℝ) (l : Line) : Plain (.num x :: l) := by
  intro rest
  constructor <;> intro h <;> cases h

theorem plain_single (t : Tok) : Plain [t] := by
  intro rest
  constructor <;> intro h <;> cases h

/-- Bounds of the block in a file of the documented form. -/
theorem winBounds_file (before mid after : List Line) (hb : ∀ l ∈ before, Plain l)
    (hm : ∀ l ∈ mid, Plain l) (ha : ∀ l ∈ after, Plain l) :
    winBounds 0 (0, 0) (before ++ ([[.word "begin", .word "unit_cell_cart"]] ++ (mid ++
      ([[.word "end", .word "unit_cell_cart"]] ++ after)))) =
      (before.length, before.length + 1 + mid.length) := by
  rw [winBounds_plain _ _ _ _ hb, List.singleton_append, winBounds]
  have h1 : isBegin [.word "begin", .word "unit_cell_cart"] = true := by decide
  have h2 : isBegin [.word "end", .word "unit_cell_cart"] = false := by decide
  have h3 : isEnd [.word "end", .word "unit_cell_cart"] = true := by decide
  rw [h1, winBounds_plain _ _ _ _ hm, List.singleton_append, winBounds, h2, h3]
  have := winBounds_plain after [] (0 + before.length + 1 + mid.length + 1)
    (before.length, 0 + before.length + 1 + mid.length) ha
  rw [List.append_nil] at this
  simp only [if_true, Bool.false_eq_true, if_false, zero_add] at this ⊢
  rw [this]
  simp [winBounds]

theorem block_file (before mid after : List Line) (b e : Line) :
    ((before ++ ([b] ++ (mid ++ ([e] ++ after)))).take
      (before.length + 1 + mid.length + 1)).drop before.length = b :: (mid ++ [e]) := by
  have : before ++ ([b] ++ (mid ++ ([e] ++ after))) = (before ++ b :: (mid ++ [e])) ++ after := by
    simp
  rw [this, List.take_left' (by simp; omega), List.drop_left]

theorem latOfList_rows (lat : Mat3 ℝ) :
    PrimCell.latOfList [[lat 0 0, lat 0 1, lat 0 2], [lat 1 0, lat 1 1, lat 1 2],
      [lat 2 0, lat 2 1, lat 2 2]] = some lat := by
  simp only [PrimCell.latOfList, Option.some.injEq]
  ext i j
  fin_cases i <;> fin_cases j <;> rfl

theorem readLatVec_ok (before after : List Line) (unit : Option String) (f : ℝ) (lat : Mat3 ℝ)
    (hb : ∀ l ∈ before, Plain l) (ha : ∀ l ∈ after, Plain l) (hu : UnitIs unit f) :
    readLatVec (winFile before unit lat after) = .ok (f • lat) := by
  have hrows : ([vecLine3 (lat 0), vecLine3 (lat 1), vecLine3 (lat 2)] : List Line).mapM
      (fun l => l.mapM Tok.toFloat) = (.ok [[lat 0 0, lat 0 1, lat 0 2], [lat 1 0, lat 1 1, lat 1 2],
      [lat 2 0, lat 2 1, lat 2 2]] : Except WErr _) := rfl
  have hplain3 : ∀ l ∈ ([vecLine3 (lat 0), vecLine3 (lat 1), vecLine3 (lat 2)] : List Line),
      Plain l := by
    intro l hl
    simp only [List.mem_cons, List.not_mem_nil, or_false] at hl
    rcases hl with rfl | rfl | rfl <;> exact plain_num _ _
  cases unit with
  | none =>
    have hf : f = 1 := by
      rcases hu with h | h
      · exact h.2
      · simp at h
    have hw : winFile before none lat after = before ++ ([[.word "begin", .word "unit_cell_cart"]] ++
        ([vecLine3 (lat 0), vecLine3 (lat 1), vecLine3 (lat 2)] ++
          ([[.word "end", .word "unit_cell_cart"]] ++ after))) := by simp [winFile]
    unfold readLatVec
    rw [hw]
    have hbd := winBounds_file before _ after hb hplain3 ha
    simp only [hbd, block_file]
    have hlen : ¬ ([Tok.word "begin", Tok.word "unit_cell_cart"] ::
      ([vecLine3 (lat 0), vecLine3 (lat 1), vecLine3 (lat 2)] ++
        [[Tok.word "end", Tok.word "unit_cell_cart"]])).length = 6 := by simp
    simp only [hlen, if_false]
    have hd : (([Tok.word "begin", Tok.word "unit_cell_cart"] ::
      ([vecLine3 (lat 0), vecLine3 (lat 1), vecLine3 (lat 2)] ++
        [[Tok.word "end", Tok.word "unit_cell_cart"]])).drop 1).dropLast =
        [vecLine3 (lat 0), vecLine3 (lat 1), vecLine3 (lat 2)] := rfl
    rw [hd]
    simp [hrows, bind, Except.bind, unitFactor, latOfList_rows, hf]
  | some u =>
    have hfac : unitFactor [.word u] = .ok f := by
      unfold unitFactor
      rcases hu with ⟨h, rfl⟩ | ⟨h, rfl⟩
      · rcases h with h | h | h
        · cases h
        · cases h; simp
        · cases h; simp
      · rcases h with h | h
        · cases h; simp [bohr2ang]
        · cases h; simp [bohr2ang]
    have hw : winFile before (some u) lat after =
        before ++ ([[.word "begin", .word "unit_cell_cart"]] ++
        (([[.word u]] ++ [vecLine3 (lat 0), vecLine3 (lat 1), vecLine3 (lat 2)]) ++
          ([[.word "end", .word "unit_cell_cart"]] ++ after))) := by simp [winFile]
    have hplain : ∀ l ∈ ([[.word u]] ++ [vecLine3 (lat 0), vecLine3 (lat 1), vecLine3 (lat 2)] :
        List Line), Plain l := by
      intro l hl
      rcases List.mem_append.1 hl with h | h
      · rw [List.mem_singleton.1 h]; exact plain_single _
      · exact hplain3 l h
    unfold readLatVec
    rw [hw]
    have hbd := winBounds_file before _ after hb hplain ha
    simp only [hbd, block_file]
    have hlen : ([Tok.word "begin", Tok.word "unit_cell_cart"] :: ([[Tok.word u]] ++
      [vecLine3 (lat 0), vecLine3 (lat 1), vecLine3 (lat 2)] ++
        [[Tok.word "end", Tok.word "unit_cell_cart"]])).length = 6 := by simp
    simp only [hlen, if_true]
    have hd : (([Tok.word "begin", Tok.word "unit_cell_cart"] :: ([[Tok.word u]] ++
      [vecLine3 (lat 0), vecLine3 (lat 1), vecLine3 (lat 2)] ++
        [[Tok.word "end", Tok.word "unit_cell_cart"]])).drop 2).dropLast =
        [vecLine3 (lat 0), vecLine3 (lat 1), vecLine3 (lat 2)] := rfl
    rw [hd]
    simp only [hrows, bind, Except.bind, List.singleton_append, List.cons_append,
      List.getD_cons_succ, List.getD_cons_zero, hfac, latOfList_rows]

/-! ## The cell -/

theorem orb_loop (pos : List (Vec3 ℝ)) : ∀ c : PrimCell ℝ ℂ String, c.locked = false →
    pos.foldlM (fun c p => lift (c.addOrbital [p 0, p 1, p 2] 0 "X")) c =
      .ok { c with orbs := c.orbs ++ pos.map fun p => ⟨p, 0, "X"⟩ } := by
  induction pos with
  | nil => intro c _; simp [pure, Except.pure]
  | cons p pos ih =>
    intro c hc
    have h1 : lift (c.addOrbital [p 0, p 1, p 2] 0 "X") =
        .ok { c with orbs := c.orbs ++ [⟨p, 0, "X"⟩] } := by
      simp [lift, PrimCell.addOrbital, hc, checkLen, PrimCell.vec3, vec3_eta]
    rw [List.foldlM_cons, h1]
    simp only [bind, Except.bind]
    refine (ih { c with orbs := c.orbs ++ [⟨p, 0, "X"⟩] } hc).trans ?_
    simp

/-- One term of the hopping loop. -/
theorem hop_step (cut : ℝ) (c : PrimCell ℝ ℂ String) (hl : c.locked = false)
    (t : (Cell × Pair) × ℂ) (hi : 0 ≤ t.1.2.1 ∧ t.1.2.1 < c.orbs.length)
    (hj : 0 ≤ t.1.2.2 ∧ t.1.2.2 < c.orbs.length) :
    ∃ c', hopStep cut c t = .ok c' ∧ c'.locked = false ∧ c'.lat = c.lat ∧ c'.origin = c.origin ∧
      c'.hops.get = (if cut ≤ ‖t.2‖ ∧ ¬ (t.1.1 = 0 ∧ t.1.2.1 = t.1.2.2) then
        HopMap.add c.hops.get t.1.1 t.1.2.1 t.1.2.2 t.2 else c.hops.get) ∧
      c'.orbs = (if cut ≤ ‖t.2‖ ∧ (t.1.1 = 0 ∧ t.1.2.1 = t.1.2.2) then
        c.orbs.modify t.1.2.1.toNat fun o => ⟨o.position, t.2.re, o.label⟩ else c.orbs) := by
  obtain ⟨⟨R, i, j⟩, e⟩ := t
  simp only at hi hj ⊢
  unfold hopStep
  by_cases hc : cut ≤ ‖e‖
  · simp only [hc, if_true, true_and]
    have hR0 : (R = (0, 0, 0)) ↔ R = 0 := Iff.rfl
    by_cases hd : R = 0 ∧ i = j
    · have hd' : R = (0, 0, 0) ∧ i = j := hd
      have h1 : c.addHopping [R.1, R.2.1, R.2.2] i j e = (c, .error .pcHopDiagonal) := by
        unfold PrimCell.addHopping PrimCell.checkHopIndex
        simp only [checkLen, PrimCell.numOrb, hl, Bool.false_eq_true, if_false, hi, hj, hd',
          and_self, not_true, if_true]
      rw [if_neg (by simp [hd]), if_pos hd]
      simp only [h1]
      refine ⟨{ c with orbs := c.orbs.modify i.toNat fun o => ⟨o.position, e.re, o.label⟩ }, ?_,
        hl, rfl, rfl, rfl, ?_⟩
      · simp only [PrimCell.setOrbital, hl, Bool.false_eq_true, if_false, PrimCell.setOrbitalAt,
          PrimCell.numOrb, pyIndex_of_nonneg hi.1 hi.2, lift, Option.getD_none, Option.getD_some]
      · rfl
    · have hd' : ¬ (R = (0, 0, 0) ∧ i = j) := hd
      have h1 : c.addHopping [R.1, R.2.1, R.2.2] i j e =
          ({ c with hops := c.hops.add R i j e }, .ok ()) := by
        unfold PrimCell.addHopping PrimCell.checkHopIndex
        simp only [checkLen, PrimCell.numOrb, hl, Bool.false_eq_true, if_false, hi, hj, hd',
          and_self, not_true]
      simp only [h1, hd, not_false_iff, if_true, if_false, lift]
      exact ⟨_, rfl, hl, rfl, rfl, IntraHop.get_add R i j e hd, rfl⟩
  · simp only [hc, if_false, false_and]
    exact ⟨c, rfl, hl, rfl, rfl, rfl, rfl⟩

/-- The whole hopping loop, for a Hermitian table. -/
theorem hop_loop (cut : ℝ) (A : Cell × Pair → ℂ) (hA : HermTable A)
    (l : List ((Cell × Pair) × ℂ)) : ∀ c : PrimCell ℝ ℂ String, c.locked = false →
    (∀ t ∈ l, A t.1 = t.2) →
    (∀ t ∈ l, (0 ≤ t.1.2.1 ∧ t.1.2.1 < c.orbs.length) ∧ (0 ≤ t.1.2.2 ∧ t.1.2.2 < c.orbs.length)) →
    ∃ c', l.foldlM (hopStep cut) c = .ok c' ∧ c'.locked = false ∧ c'.lat = c.lat ∧
      c'.origin = c.origin ∧
      (∀ R i j, ¬ (R = 0 ∧ i = j) → c'.hops.get R i j =
        if ∃ t ∈ l, cut ≤ ‖t.2‖ ∧ (t.1 = (R, (i, j)) ∨ t.1 = (-R, (j, i))) then some (A (R, (i, j)))
        else c.hops.get R i j) ∧
      (∀ i, c'.hops.get 0 i i = c.hops.get 0 i i) ∧
      c'.orbs.length = c.orbs.length ∧
      (∀ k : ℕ, c'.orbs[k]? = (c.orbs[k]?).map fun o =>
        ⟨o.position, if ∃ t ∈ l, cut ≤ ‖t.2‖ ∧ t.1 = (0, ((k : ℤ), (k : ℤ))) then
          (A (0, ((k : ℤ), (k : ℤ)))).re else o.energy, o.label⟩) := by
  classical
  induction l with
  | nil =>
    intro c hl _ _
    refine ⟨c, rfl, hl, rfl, rfl, by simp, fun _ => rfl, rfl, ?_⟩
    intro k
    simp
  | cons t l ih =>
    intro c hl hA' hr
    obtain ⟨hi, hj⟩ := hr t List.mem_cons_self
    obtain ⟨c1, h0, hl1, hlat1, hor1, hg1, ho1⟩ := hop_step cut c hl t hi hj
    have hlen1 : c1.orbs.length = c.orbs.length := by
      rw [ho1]; split <;> simp
    obtain ⟨c2, h2, hl2, hlat2, hor2, hg2, hd2, hlen2, ho2⟩ := ih c1 hl1
      (fun u hu => hA' u (List.mem_cons_of_mem _ hu))
      (fun u hu => by rw [hlen1]; exact hr u (List.mem_cons_of_mem _ hu))
    refine ⟨c2, ?_, hl2, hlat2.trans hlat1, hor2.trans hor1, ?_, ?_, hlen2.trans hlen1, ?_⟩
    · rw [List.foldlM_cons, h0]; exact h2
    · intro R i j hnd
      have hmem : (∃ u ∈ t :: l, cut ≤ ‖u.2‖ ∧ (u.1 = (R, (i, j)) ∨ u.1 = (-R, (j, i)))) ↔
          (cut ≤ ‖t.2‖ ∧ (t.1 = (R, (i, j)) ∨ t.1 = (-R, (j, i)))) ∨
          ∃ u ∈ l, cut ≤ ‖u.2‖ ∧ (u.1 = (R, (i, j)) ∨ u.1 = (-R, (j, i))) := by simp
      rw [hg2 R i j hnd]
      simp only [hmem]
      by_cases hl' : ∃ u ∈ l, cut ≤ ‖u.2‖ ∧ (u.1 = (R, (i, j)) ∨ u.1 = (-R, (j, i)))
      · simp only [hl', if_true, or_true]
      · simp only [hl', if_false, or_false]
        rw [hg1]
        have hAt := hA' t List.mem_cons_self
        by_cases hc : cut ≤ ‖t.2‖
        · by_cases h1 : t.1 = (R, (i, j))
          · have : ¬ (t.1.1 = 0 ∧ t.1.2.1 = t.1.2.2) := by rw [h1]; exact hnd
            rw [if_pos ⟨hc, this⟩, if_pos ⟨hc, Or.inl h1⟩]
            unfold HopMap.add
            rw [if_pos (by rw [h1]; simp), ← hAt, h1]
          · by_cases h2 : t.1 = (-R, (j, i))
            · have hnd2 : ¬ (t.1.1 = 0 ∧ t.1.2.1 = t.1.2.2) := by
                rw [h2]
                rintro ⟨ha, hb⟩
                exact hnd ⟨neg_eq_zero.1 ha, hb.symm⟩
              rw [if_pos ⟨hc, hnd2⟩, if_pos ⟨hc, Or.inr h2⟩]
              unfold HopMap.add
              rw [if_neg, if_pos (by rw [h2]; simp), ← hAt, h2, hA R i j, star_star]
              rintro ⟨ha, hb, hc'⟩
              exact h1 (by rw [← Prod.eta t.1, ← Prod.eta t.1.2, ← ha, ← hb, ← hc'])
            · have hneg : ¬ (cut ≤ ‖t.2‖ ∧ (t.1 = (R, (i, j)) ∨ t.1 = (-R, (j, i)))) :=
                fun h => h.2.elim h1 h2
              rw [if_neg hneg]
              split
              · unfold HopMap.add
                rw [if_neg, if_neg]
                · rintro ⟨ha, hb, hc'⟩
                  apply h2
                  rw [← Prod.eta t.1, ← Prod.eta t.1.2, hb, hc', ha, neg_neg]
                · rintro ⟨ha, hb, hc'⟩
                  apply h1
                  rw [← Prod.eta t.1, ← Prod.eta t.1.2, ← ha, ← hb, ← hc']
              · rfl
        · simp [hc]
    · intro i
      rw [hd2 i, hg1]
      split
      · rename_i h
        unfold HopMap.add
        rw [if_neg, if_neg]
        · rintro ⟨ha, hb, hc'⟩
          exact h.2 ⟨neg_eq_zero.1 ha.symm, hc'.symm.trans hb⟩
        · rintro ⟨ha, hb, hc'⟩
          exact h.2 ⟨ha.symm, hb.symm.trans hc'⟩
      · rfl
    · intro k
      have hmem : (∃ u ∈ t :: l, cut ≤ ‖u.2‖ ∧ u.1 = (0, ((k : ℤ), (k : ℤ)))) ↔
          (cut ≤ ‖t.2‖ ∧ t.1 = (0, ((k : ℤ), (k : ℤ)))) ∨
          ∃ u ∈ l, cut ≤ ‖u.2‖ ∧ u.1 = (0, ((k : ℤ), (k : ℤ))) := by simp
      rw [ho2 k, ho1]
      simp only [hmem]
      have hAt := hA' t List.mem_cons_self
      by_cases hcond : cut ≤ ‖t.2‖ ∧ (t.1.1 = 0 ∧ t.1.2.1 = t.1.2.2)
      · rw [if_pos hcond, List.getElem?_modify]
        by_cases hk : t.1.2.1.toNat = k
        · have hki : t.1.2.1 = (k : ℤ) := by omega
          have ht1 : t.1 = (0, ((k : ℤ), (k : ℤ))) := by
            rw [← Prod.eta t.1, ← Prod.eta t.1.2, ← hcond.2.2, hki, hcond.2.1]
          have hre : t.2.re = (A (0, ((k : ℤ), (k : ℤ)))).re := by rw [← hAt, ht1]
          simp only [hk, if_true, hcond.1, ht1, true_or, and_self]
          cases c.orbs[k]? with
          | none => rfl
          | some o => simp [hre]
        · have ht1 : ¬ t.1 = (0, ((k : ℤ), (k : ℤ))) := by
            intro h
            apply hk
            rw [h]; simp
          simp only [hk, if_false, ht1, and_false, false_or]
          cases c.orbs[k]? <;> rfl
      · rw [if_neg hcond]
        have ht1 : ¬ (cut ≤ ‖t.2‖ ∧ t.1 = (0, ((k : ℤ), (k : ℤ)))) := by
          rintro ⟨ha, hb⟩
          exact hcond ⟨ha, by rw [hb]; simp⟩
        simp only [ht1, false_or]

theorem gt_large {ind : List (Cell × Pair)} {eng : List ℂ} (hl : ind.length = eng.length)
    (hn : ind.Nodup) {cut : ℝ} (hc : 0 < cut) (x : Cell × Pair) :
    (∃ t ∈ ind.zip eng, cut ≤ ‖t.2‖ ∧ t.1 = x) ↔ cut ≤ ‖gt (ind, eng) x‖ := by
  constructor
  · rintro ⟨t, ht, h, rfl⟩
    rwa [gt_zip_mem hl hn ht]
  · intro h
    by_cases hx : x ∈ ind
    · obtain ⟨i, hi, rfl⟩ := List.getElem_of_mem hx
      refine ⟨(ind[i], eng[i]'(by omega)), ?_, ?_, rfl⟩
      · rw [← List.getElem_zip (h := by simp; omega)]
        exact List.getElem_mem _
      · have : gt (ind, eng) ind[i] = eng[i]'(by omega) := by
          simp only [gt, List.getElem_mem, if_true]
          rw [hn.idxOf_getElem i hi, List.getD_eq_getElem _ _ (by omega)]
        rwa [this] at h
    · simp only [gt, hx, if_false, norm_zero] at h
      linarith

/-- The hopping loop on a table with distinct indices. -/
theorem cell_of_table (cut : ℝ) (hc : 0 < cut) (ind : List (Cell × Pair)) (eng : List ℂ)
    (hl : ind.length = eng.length) (hn : ind.Nodup) (hA : HermTable (gt (ind, eng)))
    (c : PrimCell ℝ ℂ String) (hlock : c.locked = false) (hh : ∀ R i j, c.hops.get R i j = none)
    (he : ∀ o ∈ c.orbs, o.energy = 0)
    (hr : ∀ x ∈ ind, (0 ≤ x.2.1 ∧ x.2.1 < c.orbs.length) ∧ (0 ≤ x.2.2 ∧ x.2.2 < c.orbs.length)) :
    ∃ c', (ind.zip eng).foldlM (hopStep cut) c = .ok c' ∧ c'.locked = false ∧ c'.lat = c.lat ∧
      c'.origin = c.origin ∧
      (∀ R i j, c'.hops.get R i j =
        if cut ≤ ‖gt (ind, eng) (R, (i, j))‖ ∧ ¬ (R = 0 ∧ i = j) then
          some (gt (ind, eng) (R, (i, j))) else none) ∧
      (∀ k : ℕ, c'.orbs[k]? = (c.orbs[k]?).map fun o =>
        ⟨o.position, if cut ≤ ‖gt (ind, eng) (0, ((k : ℤ), (k : ℤ)))‖ then
          (gt (ind, eng) (0, ((k : ℤ), (k : ℤ)))).re else 0, o.label⟩) := by
  classical
  obtain ⟨c', h0, h1, h2, h3, h4, h5, h6, h7⟩ := hop_loop cut (gt (ind, eng)) hA (ind.zip eng) c
    hlock (fun t ht => gt_zip_mem hl hn ht)
    (fun t ht => hr t.1 (List.of_mem_zip ht).1)
  refine ⟨c', h0, h1, h2, h3, ?_, ?_⟩
  · intro R i j
    by_cases hd : R = 0 ∧ i = j
    · obtain ⟨rfl, rfl⟩ := hd
      rw [h5, hh]
      simp
    · rw [h4 R i j hd, hh]
      have : (∃ t ∈ ind.zip eng, cut ≤ ‖t.2‖ ∧ (t.1 = (R, (i, j)) ∨ t.1 = (-R, (j, i)))) ↔
          cut ≤ ‖gt (ind, eng) (R, (i, j))‖ := by
        have e1 := gt_large hl hn hc (R, (i, j))
        have e2 := gt_large hl hn hc (-R, (j, i))
        rw [hA R i j, show ‖star (gt (ind, eng) (R, (i, j)))‖ = _ from Complex.norm_conj _] at e2
        constructor
        · rintro ⟨t, ht, ha, hb | hb⟩
          · exact e1.1 ⟨t, ht, ha, hb⟩
          · exact e2.1 ⟨t, ht, ha, hb⟩
        · intro h
          obtain ⟨t, ht, ha, hb⟩ := e1.2 h
          exact ⟨t, ht, ha, Or.inl hb⟩
      simp only [this, hd, not_false_iff, and_true]
  · intro k
    rw [h7 k]
    have := gt_large hl hn hc (0, ((k : ℤ), (k : ℤ)))
    simp only [this]
    cases ho : c.orbs[k]? with
    | none => rfl
    | some o => simp [he o (List.mem_of_getElem? ho)]

theorem frac_cart (lat : Mat3 ℝ) (hd : lat.det ≠ 0) (s : ℝ) (p : Vec3 ℝ) :
    frac2cartRow (s • lat) 0 (cart2fracRow lat 0 p) = s • p := by
  unfold frac2cartRow cart2fracRow
  have hu : IsUnit lat.transpose.det := by
    rw [Matrix.det_transpose]; exact isUnit_iff_ne_zero.2 hd
  rw [Matrix.transpose_smul, Matrix.smul_mulVec, Matrix.mulVec_mulVec,
    Matrix.mul_nonsing_inv _ hu, Matrix.one_mulVec]
  simp

/-- `wan2pc` up to the correction of the hopping terms. -/
theorem wan2pc_of_table (H : HashFns ℝ ℂ String) (before after : List Line) (unit : Option String)
    (f : ℝ) (lat : Mat3 ℝ) (hb : ∀ l ∈ before, Plain l) (ha : ∀ l ∈ after, Plain l)
    (hu : UnitIs unit f) (hdet : lat.det ≠ 0)
    (head comment : Line) (sites : List (String × Vec3 ℝ))
    (hcom : Line) (n : ℤ) (deg : List ℤ) (table : List ((Cell × Pair) × ℂ))
    (ws : Option (List Line)) (correct : Bool) (cut : ℝ) (hcut : 0 < cut)
    (ind : List (Cell × Pair)) (eng : List ℂ) (hl : ind.length = eng.length) (hn : ind.Nodup)
    (hA : HermTable (gt (ind, eng)))
    (hr : ∀ x ∈ ind, (0 ≤ x.2.1 ∧ x.2.1 < ((sites.filter fun s => s.1 = "X").length : ℤ)) ∧
      (0 ≤ x.2.2 ∧ x.2.2 < ((sites.filter fun s => s.1 = "X").length : ℤ)))
    (hcor : (if correct then
        (match ws with
        | none => .error .notFound
        | some ls => do
          let w ← readWsvec ls
          applyWsvec w (table.map Prod.fst, table.map Prod.snd) :
            Except WErr (List (Cell × Pair) × List ℂ))
      else .ok (table.map Prod.fst, table.map Prod.snd)) = .ok (ind, eng)) :
    ∃ c, wan2pc H ⟨winFile before unit lat after, centresFile head comment sites,
        hrFile hcom n deg table, ws⟩ correct cut = .ok c ∧
      c.locked = false ∧ c.lat = (f / 10) • lat ∧ c.origin = 0 ∧
      (∀ R i j, c.hops.get R i j =
        if cut ≤ ‖gt (ind, eng) (R, (i, j))‖ ∧ ¬ (R = 0 ∧ i = j) then
          some (gt (ind, eng) (R, (i, j))) else none) ∧
      c.orbs.length = (sites.filter fun s => s.1 = "X").length ∧
      (∀ (k : ℕ) (o : Orbital ℝ String), c.orbs[k]? = some o → ∃ s, (sites.filter fun s => s.1 = "X")[k]? = some s ∧
        frac2cartRow c.lat c.origin o.position = (1 / 10 : ℝ) • s.2 ∧
        o.energy = (if cut ≤ ‖gt (ind, eng) (0, ((k : ℤ), (k : ℤ)))‖ then
          (gt (ind, eng) (0, ((k : ℤ), (k : ℤ)))).re else 0) ∧ o.label = "X") := by
  have hf0 : f ≠ 0 := by
    rcases hu with ⟨_, rfl⟩ | ⟨_, rfl⟩ <;> norm_num
  have hdet' : (f • lat).det ≠ 0 := by
    rw [Matrix.det_smul]
    exact mul_ne_zero (pow_ne_zero _ hf0) hdet
  set cart := (sites.filter fun s => s.1 = "X").map Prod.snd with hcart
  have hfr : cart2frac (f • lat) cart 0 = some (cart.map (cart2fracRow (f • lat) 0)) := by
    unfold cart2frac
    rw [if_neg (by rwa [Matrix.det_transpose])]
  set c0 : PrimCell ℝ ℂ String := { PrimCell.init H ((1 / 10 : ℝ) • (f • lat)) 0 with
    orbs := (cart.map (cart2fracRow (f • lat) 0)).map fun p => ⟨p, 0, "X"⟩ } with hc0
  have hlen : c0.orbs.length = (sites.filter fun s => s.1 = "X").length := by
    simp [hc0, hcart]
  obtain ⟨c, h1, h2, h3, h4, h5, h6⟩ := cell_of_table cut hcut ind eng hl hn hA c0 rfl
    (fun R i j => by simp [hc0, PrimCell.init, IntraHop.empty, IntraHop.get])
    (fun o ho => by
      simp only [hc0, List.mem_map] at ho
      obtain ⟨p, _, rfl⟩ := ho
      rfl)
    (fun x hx => by rw [hlen]; exact hr x hx)
  have hlat : c.lat = (1 / 10 : ℝ) • (f • lat) := h3
  have hor : c.origin = 0 := h4
  refine ⟨c, ?_, h2, ?_, h4, h5, ?_, ?_⟩
  · unfold wan2pc
    simp only [readLatVec_ok before after unit f lat hb ha hu, readOrbPos_ok, readHop_ok, bind,
      Except.bind, ← hcart, hfr]
    simp only [bind, Except.bind] at hcor
    have horb := orb_loop (cart.map (cart2fracRow (f • lat) 0))
      (PrimCell.init H ((1 / 10 : ℝ) • (f • lat)) 0) rfl
    cases correct with
    | false =>
      simp only [Bool.false_eq_true, if_false, Except.ok.injEq, Prod.mk.injEq] at hcor ⊢
      rw [horb, hcor.1, hcor.2]
      exact h1
    | true =>
      cases ws with
      | none => cases hcor
      | some ls =>
        simp only [if_true] at hcor ⊢
        cases hw : readWsvec ls with
        | error e => rw [hw] at hcor; cases hcor
        | ok w =>
          rw [hw] at hcor
          simp only at hcor ⊢
          rw [hcor]
          simp only
          rw [horb]
          exact h1
  · rw [hlat, smul_smul]
    congr 1
    ring
  · apply le_antisymm
    · by_contra hcon
      push Not at hcon
      have := h6 (sites.filter fun s => s.1 = "X").length
      rw [List.getElem?_eq_getElem hcon, List.getElem?_eq_none (by rw [hlen])] at this
      simp at this
    · by_contra hcon
      push Not at hcon
      have := h6 c.orbs.length
      rw [List.getElem?_eq_none le_rfl, List.getElem?_eq_getElem (by rw [hlen]; exact hcon)] at this
      simp at this
  · intro k o ho
    have hk := h6 k
    rw [ho] at hk
    cases hs : (sites.filter fun s => s.1 = "X")[k]? with
    | none =>
      have : c0.orbs[k]? = none := by simp [hc0, hcart, hs]
      rw [this] at hk
      simp at hk
    | some s =>
      have : c0.orbs[k]? = some ⟨cart2fracRow (f • lat) 0 s.2, 0, "X"⟩ := by simp [hc0, hcart, hs]
      rw [this] at hk
      simp only [Option.map_some, Option.some.injEq] at hk
      refine ⟨s, rfl, ?_, ?_, ?_⟩
      · rw [hk, hlat, hor]
        exact frac_cart (f • lat) hdet' (1 / 10) s.2
      · rw [hk]
      · rw [hk]

end Verif.Wannier

import Verif.Proof.WannierRead

/-! # Properties of the Wannier90 interface (C66, C92, C93) -/

namespace Verif.Props

open Verif.Wannier

variable {E : Type*} [Field E] [CharZero E]

/-- **C66 (partial).**  If no two terms meet after the shifts, the corrected table is the specified
one: each term is divided by the number of its images and found at each of them, and the total
amplitude between any two orbitals is conserved.  Missing: tables where several terms are moved to
the same cell; there the code does not add up the contributions (`C66_meeting_terms_lost`). -/
theorem C66_images_partial (ws : PyDict (Cell × Pair) (List Cell)) (ind : List (Cell × Pair))
    (eng : List E) (hl : ind.length = eng.length) (hn : ind.Nodup)
    (hnd : (PyDict.keys ws).Nodup) (hmem : ∀ q ∈ ws, q.1 ∈ ind)
    (hno : NoOverlap ws (amp (ind.zip eng))) :
    ∃ ind' eng', applyWsvec ws (ind, eng) = .ok (ind', eng') ∧
      ind'.length = eng'.length ∧ ind'.Nodup ∧
      (∀ y, amp (ind'.zip eng') y = corrected ws (ind.zip eng) y) ∧
      ∀ p, total (ind'.zip eng') p = total (ind.zip eng) p := by
  have hg : amp (ind.zip eng) = gt (ind, eng) := funext fun x => amp_eq ind eng hl hn x
  rw [hg] at hno
  obtain ⟨r, h1, h2, h3, h4, h5⟩ := apply_gt ws (ind, eng) hl hn hnd hmem hno
  refine ⟨r.1, r.2, h1, h2, h3, ?_, ?_⟩
  · intro y
    rw [amp_eq r.1 r.2 h2 h3]
    obtain ⟨c1, c2⟩ := corrected_eq ws ind eng hl hn hnd hno y
    by_cases hy : ∃ q ∈ ws, ∃ v ∈ q.2, (q.1.1 + v, q.1.2) = y
    · obtain ⟨q, hq, v, hv, rfl⟩ := hy
      rw [c1 q hq v hv rfl]
      exact h4 q hq v hv
    · push Not at hy
      rw [c2 hy]
      exact h5 y hy
  · intro p
    obtain ⟨r', h1', h2'⟩ := apply_total p ws (ind, eng) hl hn hnd hmem hno
    have : r' = r := by
      rw [h1] at h1'
      exact (Except.ok.inj h1').symm
    rw [this] at h2'
    exact h2'

/-- Index of the hopping from orbital 0 to orbital 1 of the cell `r` on the first axis. -/
def bond (r : ℤ) : Cell × Pair := ((r, 0, 0), (0, 1))

/-- Two terms which do not meet: the one of cell 1 is spread over the cells 1 and -2, the one of
cell 0 stays. -/
example : NoOverlap (E := ℚ) [(bond 0, [(0, 0, 0)]), (bond 1, [(0, 0, 0), (-3, 0, 0)])]
    (amp ([bond 0, bond 1].zip [5, 6])) := by
  unfold NoOverlap
  decide +kernel

example : applyWsvec [(bond 0, [(0, 0, 0)]), (bond 1, [(0, 0, 0), (-3, 0, 0)])]
    ([bond 0, bond 1], ([5, 6] : List ℚ)) = .ok ([bond 0, bond 1, bond (-2)], [5, 3, 3]) := by
  decide +kernel

/-- **C66 fails when two terms meet**: for the equivalent cells 1 and -1, each to be spread over
both, the specified amplitude of either cell is `(a + b) / 2`, but the code stores `a / 4`,
whatever the amplitude `b` of the second term, so that the total `a + b` is not conserved. -/
theorem C66_meeting_terms_lost (a b : E) :
    let ws : PyDict (Cell × Pair) (List Cell) :=
      [(bond 1, [(0, 0, 0), (-2, 0, 0)]), (bond (-1), [(0, 0, 0), (2, 0, 0)])]
    applyWsvec ws ([bond 1, bond (-1)], [a, b]) = .ok ([bond 1, bond (-1)], [a / 2 / 2, a / 2 / 2]) ∧
    corrected ws ([bond 1, bond (-1)].zip [a, b]) (bond 1) = (a + b) / 2 ∧
    corrected ws ([bond 1, bond (-1)].zip [a, b]) (bond (-1)) = (a + b) / 2 ∧
    total ([bond 1, bond (-1)].zip [a / 2 / 2, a / 2 / 2]) (0, 1) = a / 2 ∧
    total ([bond 1, bond (-1)].zip [a, b]) (0, 1) = a + b := by
  have hne : ¬ bond (-1) = bond 1 := by decide
  have hne' : ¬ bond 1 = bond (-1) := by decide
  have e1 : ((bond 1).1 + (0, 0, 0), (bond 1).2) = bond 1 := by decide
  have e2 : ((bond 1).1 + (-2, 0, 0), (bond 1).2) = bond (-1) := by decide
  have e3 : ((bond (-1)).1 + (0, 0, 0), (bond (-1)).2) = bond (-1) := by decide
  have e4 : ((bond (-1)).1 + (2, 0, 0), (bond (-1)).2) = bond 1 := by decide
  have p1 : (bond 1).2 = (0, 1) := rfl
  have p2 : (bond (-1)).2 = (0, 1) := rfl
  have b1 : (bond 1 == bond (-1)) = false := by decide
  refine ⟨?_, ?_, ?_, ?_, ?_⟩
  · simp [applyWsvec, wsKey, wsAssign, List.foldlM_cons, bind, Except.bind, pure, Except.pure,
      e1, e2, e3, e4, List.idxOf_cons, b1]
  · simp [corrected, shifts, PyDict.get?, e1, e2, e3, e4, hne, hne']
    ring
  · simp [corrected, shifts, PyDict.get?, e1, e2, e3, e4, hne, hne']
    ring
  · simp [total, p1, p2]
  · simp [total, p1, p2]

/-- **C66, missing term**: a listed index which is neither in the table nor an image of a listed
term is refused with `ValueError`. -/
theorem C66_missing_term (ws : PyDict (Cell × Pair) (List Cell)) (ind : List (Cell × Pair))
    (eng : List E) (q : (Cell × Pair) × List Cell) (hq : q ∈ ws) (h : q.1 ∉ ind)
    (himg : ∀ p ∈ ws, ∀ v ∈ p.2, (p.1.1 + v, p.1.2) ≠ q.1) :
    applyWsvec ws (ind, eng) = .error .value := by
  have hass : ∀ (p : (Cell × Pair) × List Cell) (e : E) (vs : List Cell),
      (∀ v ∈ vs, (p.1.1 + v, p.1.2) ≠ q.1) → ∀ st : List (Cell × Pair) × List E, q.1 ∉ st.1 →
      q.1 ∉ (vs.foldl (fun s v => wsAssign s (p.1.1 + v, p.1.2) e) st).1 := by
    intro p e vs
    induction vs with
    | nil => intro _ st hst; exact hst
    | cons v vs ih =>
      intro hv st hst
      refine ih (fun w hw => hv w (List.mem_cons_of_mem _ hw)) _ ?_
      unfold wsAssign
      beta_reduce
      split
      · exact hst
      · simp only [List.mem_append, List.mem_singleton, not_or]
        exact ⟨hst, (hv v List.mem_cons_self).symm⟩
  have hmain : ∀ (l : List ((Cell × Pair) × List Cell)), (∀ p ∈ l, p ∈ ws) → q ∈ l →
      ∀ st : List (Cell × Pair) × List E, q.1 ∉ st.1 → l.foldlM wsKey st = .error .value := by
    intro l
    induction l with
    | nil => intro _ hql; simp at hql
    | cons p l ih =>
      intro hl hql st hst
      rw [List.foldlM_cons]
      by_cases hp : p.1 ∈ st.1
      · have hne : q ≠ p := by rintro rfl; exact hst hp
        have hk : ∃ r, wsKey st p = .ok r ∧ q.1 ∉ r.1 := by
          unfold wsKey
          simp only [hp, if_true]
          exact ⟨_, rfl, hass p _ p.2 (himg p (hl p List.mem_cons_self)) _ hst⟩
        obtain ⟨r, hr, hr'⟩ := hk
        rw [hr]
        exact ih (fun x hx => hl x (List.mem_cons_of_mem _ hx))
          ((List.mem_cons.1 hql).resolve_left hne) r hr'
      · unfold wsKey
        simp only [hp, if_false]
        rfl
  exact hmain ws (fun _ hp => hp) hq (ind, eng) h

example : (bond 3) ∉ [bond 0, bond 1] ∧
    ∀ v ∈ ([(0, 0, 0), (1, 0, 0)] : List Cell), ((bond 0).1 + v, (bond 0).2) ≠ bond 3 := by
  decide +kernel

/-- **C92, hopping terms**: the terms of `seed_name_hr.dat` are read back exactly, for every number
of cells and hence of lines with degeneracies. -/
theorem C92_hoppings (comment : Line) (n : ℤ) (deg : List ℤ) (table : List ((Cell × Pair) × ℂ)) :
    readHop (hrFile comment n deg table) = .ok (table.map Prod.fst, table.map Prod.snd) :=
  readHop_ok comment n deg table

/-- **C92, Wigner-Seitz shifts**: the blocks of `seed_name_wsvec.dat` are read back exactly. -/
theorem C92_wsvec (comment : Line) (ws : List ((Cell × Pair) × List Cell))
    (h : (ws.map Prod.fst).Nodup) : readWsvec (wsvecFile comment ws) = .ok ws :=
  readWsvec_ok comment ws h

/-- **C92, truncated file**: a file ending inside a block is refused. -/
theorem C92_wsvec_truncated (comment : Line) (ws : List ((Cell × Pair) × List Cell))
    (h : (ws.map Prod.fst).Nodup) (x : Cell × Pair) (n : ℕ) (vs : List Cell) (hlt : vs.length < n) :
    readWsvec (wsvecFile comment ws ++ indexLine x :: [.int n] :: vs.map cellLine) =
      .error .stop := by
  have hv : ∀ (vs : List Cell) (m : ℕ), vs.length ≤ m → ∀ acc,
      ∃ m' acc', (vs.map cellLine).foldlM wsLine (.vecs ws x m acc) = .ok (.vecs ws x m' acc') := by
    intro vs
    induction vs with
    | nil => intro m _ acc; exact ⟨m, acc, rfl⟩
    | cons v vs ih =>
      intro m hm acc
      obtain ⟨k, rfl⟩ : ∃ k, m = k + 1 := ⟨m - 1, by simp at hm; omega⟩
      obtain ⟨m', acc', he⟩ := ih k (by simpa using hm) (acc ++ [v])
      refine ⟨m', acc', ?_⟩
      rw [List.map_cons, List.foldlM_cons]
      simpa only [wsLine, vecLine_ok, bind, Except.bind] using he
  obtain ⟨k, rfl⟩ : ∃ k, n = k + 1 := ⟨n - 1, by omega⟩
  obtain ⟨m', acc', he⟩ := hv vs k (by omega) []
  unfold wsvecFile
  rw [List.cons_append]
  unfold readWsvec
  dsimp only
  have hf := ws_fold ws [] (by simpa [PyDict.keys] using h)
  simp only [List.nil_append] at hf
  rw [List.foldlM_append, hf]
  simp only [List.foldlM_cons, bind, Except.bind, wsLine, keyLine_ok, Tok.toInt, Int.toNat_natCast,
    he]

/-- **C92, centres**: the positions labelled `X` in `seed_name_centres.xyz` are read back in
order; the atoms are skipped. -/
theorem C92_centres (head comment : Line) (sites : List (String × Vec3 ℝ)) :
    readOrbPos (centresFile head comment sites) =
      .ok ((sites.filter fun s => s.1 = "X").map Prod.snd) :=
  readOrbPos_ok head comment sites

/-- **C92, lattice**: the lattice vectors are read with the right unit, wherever the block stands
in `seed_name.win`. -/
theorem C92_lattice (before after : List Line) (unit : Option String) (f : ℝ) (lat : Mat3 ℝ)
    (hb : ∀ l ∈ before, Plain l) (ha : ∀ l ∈ after, Plain l) (hu : UnitIs unit f) :
    readLatVec (winFile before unit lat after) = .ok (f • lat) :=
  readLatVec_ok before after unit f lat hb ha hu

/-- A plain line, and a unit. -/
example : Plain [.word "num_wann", .word "=", .int 2] ∧ UnitIs (some "bohr") 0.529177210671212 := by
  refine ⟨fun rest => ⟨fun h => ?_, fun h => ?_⟩, Or.inr ⟨Or.inr rfl, rfl⟩⟩ <;>
    exact absurd (congrArg List.head? h) (by simp)

/-- **C93.**  The cell built by `wan2pc` from the files of a Hermitian table has the lattice
vectors and the centres of the files (in nm); its hopping terms are exactly those of the table
reaching the cutoff, its on-site energies the diagonal terms reaching the cutoff and zero
otherwise. -/
theorem C93_wan2pc (H : HashFns ℝ ℂ String) (before after : List Line) (unit : Option String)
    (f : ℝ) (lat : Mat3 ℝ) (hb : ∀ l ∈ before, Plain l) (ha : ∀ l ∈ after, Plain l)
    (hu : UnitIs unit f) (hdet : lat.det ≠ 0)
    (head comment : Line) (sites : List (String × Vec3 ℝ))
    (hcom : Line) (n : ℤ) (deg : List ℤ) (table : List ((Cell × Pair) × ℂ))
    (ws : Option (List Line)) (cut : ℝ) (hcut : 0 < cut)
    (hn : (table.map Prod.fst).Nodup) (hA : HermTable (amp table))
    (hr : ∀ t ∈ table, (0 ≤ t.1.2.1 ∧ t.1.2.1 < ((sites.filter fun s => s.1 = "X").length : ℤ)) ∧
      (0 ≤ t.1.2.2 ∧ t.1.2.2 < ((sites.filter fun s => s.1 = "X").length : ℤ))) :
    ∃ c, wan2pc H ⟨winFile before unit lat after, centresFile head comment sites,
        hrFile hcom n deg table, ws⟩ false cut = .ok c ∧
      c.locked = false ∧ c.lat = (f / 10) • lat ∧ c.origin = 0 ∧
      (∀ R i j, c.hops.get R i j =
        if cut ≤ ‖amp table (R, (i, j))‖ ∧ ¬ (R = 0 ∧ i = j) then
          some (amp table (R, (i, j))) else none) ∧
      c.orbs.length = (sites.filter fun s => s.1 = "X").length ∧
      (∀ (k : ℕ) (o : Orbital ℝ String), c.orbs[k]? = some o →
        ∃ s, (sites.filter fun s => s.1 = "X")[k]? = some s ∧
        frac2cartRow c.lat c.origin o.position = (1 / 10 : ℝ) • s.2 ∧
        o.energy = (if cut ≤ ‖amp table (0, ((k : ℤ), (k : ℤ)))‖ then
          (amp table (0, ((k : ℤ), (k : ℤ)))).re else 0) ∧ o.label = "X") := by
  have hg : amp table = gt (table.map Prod.fst, table.map Prod.snd) := by
    funext x
    have := amp_eq (table.map Prod.fst) (table.map Prod.snd) (by simp) hn x
    rwa [List.zip_map', show table.map (fun a => (a.1, a.2)) = table by simp] at this
  rw [hg] at hA ⊢
  exact wan2pc_of_table H before after unit f lat hb ha hu hdet head comment sites hcom n deg table
    ws false cut hcut (table.map Prod.fst) (table.map Prod.snd) (by simp) hn hA
    (fun x hx => by
      obtain ⟨t, ht, rfl⟩ := List.mem_map.1 hx
      exact hr t ht) rfl

/-- **C93 with the Wigner-Seitz correction (partial)**: the same holds of the corrected table when
no two terms meet after the shifts.  Missing: tables where several terms are moved to the same
cell (see C66). -/
theorem C93_wan2pc_corrected_partial (H : HashFns ℝ ℂ String) (before after : List Line)
    (unit : Option String) (f : ℝ) (lat : Mat3 ℝ) (hb : ∀ l ∈ before, Plain l)
    (ha : ∀ l ∈ after, Plain l) (hu : UnitIs unit f) (hdet : lat.det ≠ 0)
    (head comment : Line) (sites : List (String × Vec3 ℝ))
    (hcom : Line) (n : ℤ) (deg : List ℤ) (table : List ((Cell × Pair) × ℂ))
    (wcom : Line) (ws : List ((Cell × Pair) × List Cell)) (cut : ℝ) (hcut : 0 < cut)
    (hn : (table.map Prod.fst).Nodup) (hnd : (ws.map Prod.fst).Nodup)
    (hmem : ∀ q ∈ ws, q.1 ∈ table.map Prod.fst) (hno : NoOverlap ws (amp table))
    (hA : HermTable (corrected ws table))
    (hr : ∀ t ∈ table, (0 ≤ t.1.2.1 ∧ t.1.2.1 < ((sites.filter fun s => s.1 = "X").length : ℤ)) ∧
      (0 ≤ t.1.2.2 ∧ t.1.2.2 < ((sites.filter fun s => s.1 = "X").length : ℤ))) :
    ∃ c, wan2pc H ⟨winFile before unit lat after, centresFile head comment sites,
        hrFile hcom n deg table, some (wsvecFile wcom ws)⟩ true cut = .ok c ∧
      c.locked = false ∧ c.lat = (f / 10) • lat ∧ c.origin = 0 ∧
      (∀ R i j, c.hops.get R i j =
        if cut ≤ ‖corrected ws table (R, (i, j))‖ ∧ ¬ (R = 0 ∧ i = j) then
          some (corrected ws table (R, (i, j))) else none) ∧
      c.orbs.length = (sites.filter fun s => s.1 = "X").length ∧
      (∀ (k : ℕ) (o : Orbital ℝ String), c.orbs[k]? = some o →
        ∃ s, (sites.filter fun s => s.1 = "X")[k]? = some s ∧
        frac2cartRow c.lat c.origin o.position = (1 / 10 : ℝ) • s.2 ∧
        o.energy = (if cut ≤ ‖corrected ws table (0, ((k : ℤ), (k : ℤ)))‖ then
          (corrected ws table (0, ((k : ℤ), (k : ℤ)))).re else 0) ∧ o.label = "X") := by
  have hz : (table.map Prod.fst).zip (table.map Prod.snd) = table := by
    rw [List.zip_map']; simp
  obtain ⟨ind, eng, h1, h2, h3, h4, -⟩ := C66_images_partial ws (table.map Prod.fst)
    (table.map Prod.snd) (by simp) hn hnd hmem (by rwa [hz])
  rw [hz] at h4
  have hg : corrected ws table = gt (ind, eng) := by
    funext x
    rw [← h4, amp_eq ind eng h2 h3]
  have hmemInd : ∀ x ∈ ind, x ∈ table.map Prod.fst ∨
      ∃ q ∈ ws, ∃ v ∈ q.2, (q.1.1 + v, q.1.2) = x :=
    apply_mem ws _ _ h1
  rw [hg] at hA ⊢
  refine wan2pc_of_table H before after unit f lat hb ha hu hdet head comment sites hcom n deg table
    _ true cut hcut ind eng h2 h3 hA ?_ ?_
  · intro x hx
    have : ∃ t ∈ table, t.1.2 = x.2 := by
      rcases hmemInd x hx with h | ⟨q, hq, v, _, rfl⟩
      · obtain ⟨t, ht, rfl⟩ := List.mem_map.1 h
        exact ⟨t, ht, rfl⟩
      · obtain ⟨t, ht, htq⟩ := List.mem_map.1 (hmem q hq)
        exact ⟨t, ht, by rw [htq]⟩
    obtain ⟨t, ht, hx2⟩ := this
    rw [← hx2]
    exact hr t ht
  · simp only [if_true, readWsvec_ok wcom ws hnd, bind, Except.bind]
    exact h1

/-- A Hermitian table with distinct indices: one bond and its conjugate, and an on-site term. -/
def bondTable : List ((Cell × Pair) × ℂ) :=
  [(((0, 0, 0), (0, 0)), 2), (((1, 0, 0), (0, 1)), ⟨1, 1⟩), (((-1, 0, 0), (1, 0)), ⟨1, -1⟩)]

example : (bondTable.map Prod.fst).Nodup ∧ HermTable (amp bondTable) ∧
    ∀ t ∈ bondTable, (0 ≤ t.1.2.1 ∧ t.1.2.1 < 2) ∧ (0 ≤ t.1.2.2 ∧ t.1.2.2 < 2) := by
  have hstar : ∀ x y : ℝ, star (⟨x, y⟩ : ℂ) = ⟨x, -y⟩ := fun x y => rfl
  refine ⟨by simp [bondTable], ?_, by simp [bondTable]⟩
  intro R i j
  obtain ⟨a, b, c⟩ := R
  simp only [amp, bondTable, List.filter_cons, List.filter_nil, Prod.mk.injEq, Prod.neg_mk]
  by_cases h1 : a = 0 ∧ b = 0 ∧ c = 0 ∧ i = 0 ∧ j = 0
  · obtain ⟨rfl, rfl, rfl, rfl, rfl⟩ := h1
    simp
  · by_cases h2 : a = 1 ∧ b = 0 ∧ c = 0 ∧ i = 0 ∧ j = 1
    · obtain ⟨rfl, rfl, rfl, rfl, rfl⟩ := h2
      simp [hstar]
    · by_cases h3 : a = -1 ∧ b = 0 ∧ c = 0 ∧ i = 1 ∧ j = 0
      · obtain ⟨rfl, rfl, rfl, rfl, rfl⟩ := h3
        simp [hstar]
      · rw [if_neg (by simp; omega), if_neg (by simp; omega), if_neg (by simp; omega),
          if_neg (by simp; omega), if_neg (by simp; omega), if_neg (by simp; omega)]
        simp

end Verif.Props

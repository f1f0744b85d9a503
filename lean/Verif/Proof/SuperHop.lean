import Verif.Proof.SuperIndex
import Mathlib.Tactic.FieldSimp
import Mathlib.Tactic.LinearCombination
import Mathlib.Algebra.BigOperators.Fin

/-! # Hopping builders of the supercell -/

namespace Verif

variable {F E : Type*} [Field F]

theorem wrapPbc_eq {n : ℕ} (hn : 0 < n) (x : ℤ) (p : Bool) :
    wrapPbc x n p = (wrapImage p n x).getD (-1) := by
  cases p
  · rw [wrapPbc_false]; unfold wrapImage; split_ifs <;> simp_all
  · rw [wrapPbc_true hn]; simp [wrapImage]

theorem wrapImage_range {n : ℕ} (hn : 0 < n) {x y : ℤ} {p : Bool} (h : wrapImage p n x = some y) :
    0 ≤ y ∧ y < n ∧ y = x % n := by
  have hn' : (0 : ℤ) < n := by exact_mod_cast hn
  cases p
  · simp only [wrapImage, Bool.false_eq_true, if_false] at h
    split_ifs at h with h1
    cases h
    exact ⟨h1.1, h1.2, (Int.emod_eq_of_lt h1.1 h1.2).symm⟩
  · simp only [wrapImage, if_true, Option.some.injEq] at h
    subst h
    exact ⟨Int.emod_nonneg _ hn'.ne', Int.emod_lt_of_pos _ hn', rfl⟩

/-- Positive dimensions. -/
structure Dim.Pos (d : Dim) : Prop where
  a : 0 < d.a
  b : 0 < d.b
  c : 0 < d.c

theorem ketImage_legal {d : Dim} (hd : d.Pos) {n : ℕ} {pbc : Pbc} {q k : IdPc} {t : Cell × Pair × E}
    (ht : 0 ≤ t.2.1.2 ∧ t.2.1.2 < n) (h : ketImage d pbc q t = some k) : LegalId d n k := by
  unfold ketImage at h
  split at h
  · rename_i a b c ha hb hc
    cases h
    have h1 := wrapImage_range hd.a ha
    have h2 := wrapImage_range hd.b hb
    have h3 := wrapImage_range hd.c hc
    exact ⟨⟨h1.1, h1.2.1⟩, ⟨h2.1, h2.2.1⟩, ⟨h3.1, h3.2.1⟩, ht⟩
  · exact absurd h (by simp)

theorem ketImage_mod {d : Dim} (hd : d.Pos) {pbc : Pbc} {q k : IdPc} {t : Cell × Pair × E}
    (h : ketImage d pbc q t = some k) :
    k.1 = (q.1 + t.1.1) % d.a ∧ k.2.1 = (q.2.1 + t.1.2.1) % d.b ∧
      k.2.2.1 = (q.2.2.1 + t.1.2.2) % d.c ∧ k.2.2.2 = t.2.1.2 := by
  unfold ketImage at h
  split at h
  · rename_i a b c ha hb hc
    cases h
    exact ⟨(wrapImage_range hd.a ha).2.2, (wrapImage_range hd.b hb).2.2, (wrapImage_range hd.c hc).2.2, rfl⟩
  · exact absurd h (by simp)

theorem genTerm_eq {d : Dim} (hd : d.Pos) {n : ℕ} {vacs : List IdPc} (hv : LegalVacs d n vacs)
    (pbc : Pbc) (scLat : Mat3 F) (scPos : ℤ → Vec3 F) (io : ℤ) (q : IdPc) (t : Cell × Pair × E)
    (ht : 0 ≤ t.2.1.2 ∧ t.2.1.2 < n) :
    genTerm d pbc n (vacIdSc d n vacs) scLat scPos io q t =
      if q.2.2.2 = t.2.1.1 then
        match ketImage d pbc q t with
        | none => none
        | some k => if k ∈ vacs then none else
          some ⟨io, idPc2ScAny d n (vacIdSc d n vacs) k, t.2.2,
            hopDr scLat scPos io (idPc2ScAny d n (vacIdSc d n vacs) k)
              ((q.1 + t.1.1) / d.a) ((q.2.1 + t.1.2.1) / d.b) ((q.2.2.1 + t.1.2.2) / d.c)⟩
      else none := by
  unfold genTerm
  by_cases hq : q.2.2.2 = t.2.1.1
  swap
  · rw [if_neg hq, if_neg hq]
  rw [if_pos hq, if_pos hq]
  simp only [wrapPbc_eq hd.a, wrapPbc_eq hd.b, wrapPbc_eq hd.c, fastDiv_eq hd.a, fastDiv_eq hd.b,
    fastDiv_eq hd.c]
  have hk := @ketImage_legal E d hd n pbc q
  unfold ketImage at hk ⊢
  rcases ha : wrapImage pbc.1 d.a (q.1 + t.1.1) with _ | a
  · simp
  rcases hb : wrapImage pbc.2.1 d.b (q.2.1 + t.1.2.1) with _ | b
  · simp
  rcases hc : wrapImage pbc.2.2 d.c (q.2.2.1 + t.1.2.2) with _ | c
  · simp
  have h1 := wrapImage_range hd.a ha
  have h2 := wrapImage_range hd.b hb
  have h3 := wrapImage_range hd.c hc
  have hleg : LegalId d n (a, b, c, t.2.1.2) :=
    ⟨⟨h1.1, h1.2.1⟩, ⟨h2.1, h2.2.1⟩, ⟨h3.1, h3.2.1⟩, ht⟩
  simp only [Option.getD_some]
  rw [if_neg (by omega)]
  have hlen : (vacIdSc d n vacs).length = 0 ∨
      idPc2ScAny d n (vacIdSc d n vacs) (a, b, c, t.2.1.2) ≠ -1 ↔ (a, b, c, t.2.1.2) ∉ vacs := by
    constructor
    · rintro (h | h) hm
      · rw [length_vacIdSc, List.length_eq_zero_iff] at h
        rw [h] at hm; simp at hm
      · apply h; rw [idPc2ScAny_spec hv hleg, if_pos hm]
    · intro hm
      right
      have := (buildOrbIdPc_get hv hleg hm).1
      omega
  by_cases hm : (a, b, c, t.2.1.2) ∈ vacs
  · rw [if_neg (fun h => (hlen.1 h) hm), if_pos hm]
  · rw [if_pos (hlen.2 hm), if_neg hm]

theorem siteAt_ket {d : Dim} {n : ℕ} {vacs : List IdPc} (hv : LegalVacs d n vacs) {k : IdPc}
    (hk : LegalId d n k) (hm : k ∉ vacs) :
    siteAt (buildOrbIdPc d n (vacIdSc d n vacs)) (idPc2ScAny d n (vacIdSc d n vacs) k) = some k := by
  obtain ⟨h0, hg⟩ := buildOrbIdPc_get hv hk hm
  rw [siteAt, if_pos h0, hg]

theorem zipIdx_flatMap {α β : Type*} (l : List α) (f : α × ℕ → List β) (g : α → List β)
    (h : ∀ p : α × ℕ, l[p.2]? = some p.1 → f p = g p.1) : l.zipIdx.flatMap f = l.flatMap g := by
  have h1 : l.zipIdx.flatMap f = l.zipIdx.flatMap (fun p => g p.1) := by
    apply List.flatMap_congr
    intro p hp
    apply h
    rwa [List.mem_zipIdx_iff_getElem?] at hp
  rw [h1]
  have h2 : l.flatMap g = (l.zipIdx.map Prod.fst).flatMap g := by simp
  rw [h2, List.flatMap_map]

theorem buildHopGen_map {β : Type*} {d : Dim} (hd : d.Pos) {n : ℕ} {vacs : List IdPc} (hv : LegalVacs d n vacs)
    (pbc : Pbc) (scLat : Mat3 F) (scPos : ℤ → Vec3 F) (hops : List (Cell × Pair × E))
    (hr : HopsInRange n hops) (D : SCHop F E → β) (S : IdPc → IdPc → (Cell × Pair × E) → β)
    (hDS : ∀ (io : ℕ) (q k : IdPc) (t : Cell × Pair × E), t ∈ hops →
      (buildOrbIdPc d n (vacIdSc d n vacs))[io]? = some q → q.2.2.2 = t.2.1.1 →
      ketImage d pbc q t = some k → k ∉ vacs →
      D ⟨io, idPc2ScAny d n (vacIdSc d n vacs) k, t.2.2,
        hopDr scLat scPos io (idPc2ScAny d n (vacIdSc d n vacs) k)
          ((q.1 + t.1.1) / d.a) ((q.2.1 + t.1.2.1) / d.b) ((q.2.2.1 + t.1.2.2) / d.c)⟩ = S q k t) :
    (buildHopGen hops d pbc n (buildOrbIdPc d n (vacIdSc d n vacs)) (vacIdSc d n vacs) scLat scPos).map D =
      (buildOrbIdPc d n (vacIdSc d n vacs)).flatMap (fun q => hops.filterMap (fun t =>
        if q.2.2.2 = t.2.1.1 then
          match ketImage d pbc q t with
          | none => none
          | some k => if k ∈ vacs then none else some (S q k t)
        else none)) := by
  unfold buildHopGen
  rw [List.map_flatMap]
  apply zipIdx_flatMap
  rintro ⟨q, io⟩ hp
  simp only at hp
  rw [List.map_filterMap]
  apply List.filterMap_congr
  intro t ht
  rw [genTerm_eq hd hv pbc scLat scPos _ _ _ (hr t ht).2]
  by_cases hq : q.2.2.2 = t.2.1.1
  · rw [if_pos hq, if_pos hq]
    rcases hk : ketImage d pbc q t with _ | k
    · rfl
    · simp only
      by_cases hm : k ∈ vacs
      · rw [if_pos hm, if_pos hm]; rfl
      · rw [if_neg hm, if_neg hm]
        simp only [Option.map_some, Option.some.injEq]
        exact hDS io q k t ht hp hq hk hm
  · rw [if_neg hq, if_neg hq]; rfl

/-! ## Number of terms -/

theorem sum_count_le (hops : List (Cell × Pair × E)) (cells : List Cell) (n : ℕ)
    (g : IdPc → (Cell × Pair × E) → Bool) (L : List IdPc)
    (hL : ∀ o : ℤ, (L.filter (fun q => decide (q.2.2.2 = o))).length ≤ cells.length) :
    (L.flatMap (fun q => hops.filter (fun t => decide (q.2.2.2 = t.2.1.1) && g q t))).length
      ≤ hops.length * cells.length := by
  induction hops with
  | nil => simp
  | cons t ts ih =>
    have hp : (L.flatMap (fun q => (t :: ts).filter (fun t => decide (q.2.2.2 = t.2.1.1) && g q t))).Perm
        (L.flatMap (fun q => [t].filter (fun t => decide (q.2.2.2 = t.2.1.1) && g q t)) ++
          L.flatMap (fun q => ts.filter (fun t => decide (q.2.2.2 = t.2.1.1) && g q t))) := by
      refine (List.Perm.trans ?_ (List.flatMap_append_perm _ _ _).symm)
      apply List.Perm.of_eq
      congr 1; funext q
      rw [← List.filter_append]; rfl
    rw [hp.length_eq, List.length_append, List.length_cons, Nat.succ_mul, Nat.add_comm]
    refine Nat.add_le_add ih ?_
    refine le_trans ?_ (hL t.2.1.1)
    clear ih hp hL
    induction L with
    | nil => simp
    | cons q qs ihq =>
      have h1 : ([t].filter (fun t => decide (q.2.2.2 = t.2.1.1) && g q t)).length
          ≤ if q.2.2.2 = t.2.1.1 then 1 else 0 := by
        by_cases hq : q.2.2.2 = t.2.1.1
        · rw [if_pos hq]; exact List.length_filter_le _ [t]
        · simp [hq]
      have h2 : ((q :: qs).filter (fun q => decide (q.2.2.2 = t.2.1.1))).length
          = (qs.filter (fun q => decide (q.2.2.2 = t.2.1.1))).length
            + if q.2.2.2 = t.2.1.1 then 1 else 0 := by
        rw [List.filter_cons]; by_cases hq : q.2.2.2 = t.2.1.1 <;> simp [hq]
      rw [List.flatMap_cons, List.length_append]
      omega

theorem length_cellLoop (d : Dim) : (cellLoop d).length = d.prod := by
  simpa using congrArg List.length (cellLoop_map d)

theorem filter_range_length_le (n : ℕ) (o : ℤ) (f : ℕ → Bool) (hf : ∀ k, f k = true → (k : ℤ) = o) :
    ((List.range n).filter f).length ≤ 1 := by
  have hnd := (List.nodup_range (n := n)).filter f
  rcases h : (List.range n).filter f with _ | ⟨a, _ | ⟨b, l⟩⟩
  · simp
  · simp
  · have ha : a ∈ (List.range n).filter f := by rw [h]; simp
    have hb : b ∈ (List.range n).filter f := by rw [h]; simp
    have h1 := hf a (List.mem_filter.1 ha).2
    have h2 := hf b (List.mem_filter.1 hb).2
    rw [h] at hnd
    have : a = b := by omega
    simp [this] at hnd

theorem quads_filter_le (d : Dim) (n : ℕ) (o : ℤ) :
    ((quads d n).filter (fun q => decide (q.2.2.2 = o))).length ≤ (cellLoop d).length := by
  unfold quads
  generalize cellLoop d = cs
  induction cs with
  | nil => simp
  | cons c cs ih =>
    rw [List.flatMap_cons, List.filter_append, List.length_append, List.length_cons, Nat.add_comm]
    refine Nat.add_le_add ih ?_
    rw [List.filter_map, List.length_map]
    exact filter_range_length_le n o _ (by simp)

theorem filterMap_length_eq {α β : Type*} (l : List α) (f : α → Option β) :
    (l.filterMap f).length = (l.filter (fun t => (f t).isSome)).length := by
  induction l with
  | nil => rfl
  | cons a l ih =>
    rw [List.filterMap_cons, List.filter_cons]
    cases h : f a <;> simp [ih]

theorem buildHopGen_length_le (hops : List (Cell × Pair × E)) (d : Dim) (pbc : Pbc) (n : ℕ)
    {vacs : List IdPc} (hv : LegalVacs d n vacs) (scLat : Mat3 F) (scPos : ℤ → Vec3 F) :
    (buildHopGen hops d pbc n (buildOrbIdPc d n (vacIdSc d n vacs)) (vacIdSc d n vacs) scLat scPos).length
      ≤ hops.length * d.prod := by
  have hlen : (buildHopGen hops d pbc n (buildOrbIdPc d n (vacIdSc d n vacs)) (vacIdSc d n vacs)
      scLat scPos).length ≤ ((buildOrbIdPc d n (vacIdSc d n vacs)).flatMap (fun q =>
        hops.filter (fun t => decide (q.2.2.2 = t.2.1.1) && true))).length := by
    unfold buildHopGen
    have h2 : ((buildOrbIdPc d n (vacIdSc d n vacs)).flatMap (fun q =>
        hops.filter (fun t => decide (q.2.2.2 = t.2.1.1) && true)))
        = (buildOrbIdPc d n (vacIdSc d n vacs)).zipIdx.flatMap (fun p =>
        hops.filter (fun t => decide (p.1.2.2.2 = t.2.1.1) && true)) :=
      (zipIdx_flatMap _ _ _ (fun p _ => rfl)).symm
    rw [h2, List.length_flatMap, List.length_flatMap]
    apply List.sum_le_sum
    intro p _
    rw [filterMap_length_eq]
    apply List.Sublist.length_le
    apply List.monotone_filter_right
    intro t ht
    by_contra hne
    simp only [Bool.and_true, decide_eq_true_eq] at hne
    simp [genTerm, hne] at ht
  refine le_trans hlen ?_
  rw [← length_cellLoop]
  apply sum_count_le hops (cellLoop d) n (fun _ _ => true)
  intro o
  rw [buildOrbIdPc_eq hv]
  refine le_trans ?_ (quads_filter_le d n o)
  exact ((List.filter_sublist (p := fun q => decide (q ∉ vacs))).filter _).length_le

/-! ## Terms as triples -/

/-- The surviving triples (bra orbital, ket orbital, primitive hopping). -/
def triples (d : Dim) (pbc : Pbc) (vacs : List IdPc) (sites : List IdPc) (hops : List (Cell × Pair × E)) :
    List (IdPc × IdPc × (Cell × Pair × E)) :=
  sites.flatMap (fun q => hops.filterMap (fun t =>
    if q.2.2.2 = t.2.1.1 then
      match ketImage d pbc q t with
      | none => none
      | some k => if k ∈ vacs then none else some (q, k, t)
    else none))

theorem mem_triples {d : Dim} {pbc : Pbc} {vacs sites : List IdPc} {hops : List (Cell × Pair × E)}
    {q k : IdPc} {t : Cell × Pair × E} : (q, k, t) ∈ triples d pbc vacs sites hops ↔
      q ∈ sites ∧ t ∈ hops ∧ q.2.2.2 = t.2.1.1 ∧ ketImage d pbc q t = some k ∧ k ∉ vacs := by
  simp only [triples, List.mem_flatMap, List.mem_filterMap]
  constructor
  · rintro ⟨q', hq', t', ht', h⟩
    split_ifs at h with h1
    split at h
    · exact absurd h (by simp)
    · rename_i k' hk'
      split_ifs at h with h2
      simp only [Option.some.injEq, Prod.mk.injEq] at h
      obtain ⟨rfl, rfl, rfl⟩ := h
      exact ⟨hq', ht', h1, hk', h2⟩
  · rintro ⟨h1, h2, h3, h4, h5⟩
    exact ⟨q, h1, t, h2, by rw [if_pos h3, h4]; simp [h5]⟩

theorem filterMap_map_sublist {α β γ : Type*} (l : List α) (f : α → Option β) (π : β → γ) (κ : α → γ)
    (h : ∀ a b, f a = some b → π b = κ a) : ((l.filterMap f).map π).Sublist (l.map κ) := by
  induction l with
  | nil => simp
  | cons a l ih =>
    rw [List.filterMap_cons]
    cases hf : f a with
    | none => exact ih.cons _
    | some b => simp only [List.map_cons]; rw [h a b hf]; exact ih.cons_cons _

theorem triples_nodup {d : Dim} {pbc : Pbc} {vacs sites : List IdPc} {hops : List (Cell × Pair × E)}
    (hs : sites.Nodup) (hk : (hops.map (fun t => (t.1, t.2.1))).Nodup) :
    (triples d pbc vacs sites hops).Pairwise
      (fun x y => ¬ (x.1 = y.1 ∧ x.2.2.1 = y.2.2.1 ∧ x.2.2.2.1 = y.2.2.2.1)) := by
  have h1 : ((triples d pbc vacs sites hops).map
      (fun x => (x.1, x.2.2.1, x.2.2.2.1))).Nodup := by
    unfold triples
    rw [List.map_flatMap, List.nodup_flatMap]
    constructor
    · intro q _
      refine List.Nodup.sublist (filterMap_map_sublist hops _ _ (fun t => (q, t.1, t.2.1)) ?_) ?_
      · intro t b hb
        split_ifs at hb with h1
        split at hb
        · exact absurd hb (by simp)
        · split_ifs at hb
          cases hb; rfl
      · have : (hops.map (fun t => (q, t.1, t.2.1))) = (hops.map (fun t => (t.1, t.2.1))).map (fun y => (q, y)) := by
          rw [List.map_map]; rfl
        rw [this]
        exact hk.map (fun a b h => by simpa using h)
    · refine hs.imp ?_
      intro q q' hne
      rw [Function.onFun, List.disjoint_left]
      intro y hy hy'
      simp only [List.mem_map, List.mem_filterMap] at hy hy'
      obtain ⟨x, ⟨t, _, hx⟩, rfl⟩ := hy
      obtain ⟨x', ⟨t', _, hx'⟩, he⟩ := hy'
      have e1 : x.1 = q := by
        split_ifs at hx; split at hx
        · exact absurd hx (by simp)
        · split_ifs at hx; cases hx; rfl
      have e2 : x'.1 = q' := by
        split_ifs at hx'; split at hx'
        · exact absurd hx' (by simp)
        · split_ifs at hx'; cases hx'; rfl
      apply hne
      rw [← e1, ← e2]
      exact (congrArg Prod.fst he).symm
  rw [List.Nodup, List.pairwise_map] at h1
  refine h1.imp ?_
  intro x y hne ⟨a, b, c⟩
  exact hne (by rw [a, b, c])

/-- The term generated by a triple. -/
def mkTerm (d : Dim) (n : ℕ) (vacs : List IdPc) (scLat : Mat3 F) (scPos : ℤ → Vec3 F)
    (x : IdPc × IdPc × (Cell × Pair × E)) : SCHop F E :=
  ⟨idPc2ScAny d n (vacIdSc d n vacs) x.1, idPc2ScAny d n (vacIdSc d n vacs) x.2.1, x.2.2.2.2,
    hopDr scLat scPos (idPc2ScAny d n (vacIdSc d n vacs) x.1) (idPc2ScAny d n (vacIdSc d n vacs) x.2.1)
      ((x.1.1 + x.2.2.1.1) / d.a) ((x.1.2.1 + x.2.2.1.2.1) / d.b) ((x.1.2.2.1 + x.2.2.1.2.2) / d.c)⟩

theorem buildHopGen_triples {d : Dim} (hd : d.Pos) {n : ℕ} {vacs : List IdPc} (hv : LegalVacs d n vacs)
    (pbc : Pbc) (scLat : Mat3 F) (scPos : ℤ → Vec3 F) (hops : List (Cell × Pair × E))
    (hr : HopsInRange n hops) :
    buildHopGen hops d pbc n (buildOrbIdPc d n (vacIdSc d n vacs)) (vacIdSc d n vacs) scLat scPos =
      (triples d pbc vacs (buildOrbIdPc d n (vacIdSc d n vacs)) hops).map (mkTerm d n vacs scLat scPos) := by
  have h := buildHopGen_map hd hv pbc scLat scPos hops hr id
    (fun q k t => mkTerm d n vacs scLat scPos (q, k, t)) (by
      intro io q k t _ hio _ _ _
      obtain ⟨hlt, he⟩ := List.getElem?_eq_some_iff.1 hio
      have hi := buildOrbIdPc_index hv io hlt
      rw [he] at hi
      simp only [id, mkTerm, hi])
  rw [List.map_id] at h
  rw [h, triples, List.map_flatMap]
  congr 1; funext q
  rw [List.map_filterMap]
  congr 1; funext t
  split_ifs
  · split
    · rfl
    · split_ifs <;> rfl
  · rfl

/-! ## No double counting -/

theorem eq_of_emod_eq {n : ℕ} {x y : ℤ} (h : x % n = y % n) (h1 : x - y < n) (h2 : y - x < n) : x = y := by
  have hd : (n : ℤ) ∣ x - y := Int.dvd_of_emod_eq_zero (by
    rw [Int.sub_emod, h]; simp)
  have := Int.eq_zero_of_abs_lt_dvd hd (abs_lt.2 ⟨by omega, h1⟩)
  omega

theorem same_image {n : ℕ} {x R R' : ℤ} (h : (x + R) % n = (x + R') % n)
    (hR : 2 * |R| + 1 ≤ n) (hR' : 2 * |R'| + 1 ≤ n) : R = R' := by
  have h1 := abs_le.1 (le_refl |R|)
  have h2 := abs_le.1 (le_refl |R'|)
  have := eq_of_emod_eq h (by omega) (by omega)
  omega

theorem back_image {n : ℕ} {x y R R' : ℤ} (hx : 0 ≤ x ∧ x < n) (h : y = (x + R) % n) (h' : x = (y + R') % n)
    (hR : 2 * |R| + 1 ≤ n) (hR' : 2 * |R'| + 1 ≤ n) : R' = -R := by
  have h1 := abs_le.1 (le_refl |R|)
  have h2 := abs_le.1 (le_refl |R'|)
  have e : x % n = (x + R + R') % n := by
    rw [Int.emod_eq_of_lt hx.1 hx.2]
    conv_lhs => rw [h', h]
    rw [Int.emod_add_emod]
  have := eq_of_emod_eq e (by omega) (by omega)
  omega

theorem self_image {n : ℕ} {x R : ℤ} (hx : 0 ≤ x ∧ x < n) (h : x = (x + R) % n)
    (hR : 2 * |R| + 1 ≤ n) : R = 0 := by
  have h1 := abs_le.1 (le_refl |R|)
  have e : x % n = (x + R) % n := by
    rw [Int.emod_eq_of_lt hx.1 hx.2]; exact h
  have := eq_of_emod_eq e (by omega) (by omega)
  omega

theorem idPc2ScAny_inj {d : Dim} {n : ℕ} {vacs : List IdPc} (hv : LegalVacs d n vacs) {p q : IdPc}
    (hp : LegalId d n p) (hp' : p ∉ vacs) (hq : LegalId d n q) (hq' : q ∉ vacs)
    (h : idPc2ScAny d n (vacIdSc d n vacs) p = idPc2ScAny d n (vacIdSc d n vacs) q) : p = q := by
  have h1 := siteAt_ket hv hp hp'
  have h2 := siteAt_ket hv hq hq'
  rw [h, h2] at h1
  exact (Option.some.inj h1).symm

theorem largeEnough_pos {d : Dim} {hops : List (Cell × Pair × E)} (h : LargeEnough d hops) (hne : hops ≠ []) :
    d.Pos := by
  obtain ⟨t, ht⟩ := List.exists_mem_of_ne_nil _ hne
  obtain ⟨h1, h2, h3⟩ := h t ht
  have := abs_nonneg t.1.1
  have := abs_nonneg t.1.2.1
  have := abs_nonneg t.1.2.2
  exact ⟨by omega, by omega, by omega⟩

theorem buildHopGen_pairs {d : Dim} {n : ℕ} {vacs : List IdPc} (hv : LegalVacs d n vacs)
    (pbc : Pbc) (scLat : Mat3 F) (scPos : ℤ → Vec3 F) (hops : List (Cell × Pair × E))
    (hr : HopsInRange n hops) (hred : Reduced hops) (hbig : LargeEnough d hops) :
    (∀ h ∈ buildHopGen hops d pbc n (buildOrbIdPc d n (vacIdSc d n vacs)) (vacIdSc d n vacs) scLat scPos,
      h.i ≠ h.j) ∧
    (buildHopGen hops d pbc n (buildOrbIdPc d n (vacIdSc d n vacs)) (vacIdSc d n vacs) scLat scPos).Pairwise
      (fun h h' => ¬ (h.i = h'.i ∧ h.j = h'.j) ∧ ¬ (h.i = h'.j ∧ h.j = h'.i)) := by
  rcases eq_or_ne hops [] with rfl | hne
  · have : buildHopGen ([] : List (Cell × Pair × E)) d pbc n (buildOrbIdPc d n (vacIdSc d n vacs))
        (vacIdSc d n vacs) scLat scPos = [] := by
      unfold buildHopGen; rw [List.flatMap_eq_nil_iff]; intro p _; rfl
    rw [this]; simp
  have hd := largeEnough_pos hbig hne
  rw [buildHopGen_triples hd hv pbc scLat scPos hops hr]
  constructor
  · intro h hm
    obtain ⟨⟨q, k, t⟩, hx, rfl⟩ := List.mem_map.1 hm
    obtain ⟨hq, ht, ho, hk, hkv⟩ := mem_triples.1 hx
    obtain ⟨hql, hqv⟩ := (mem_buildOrbIdPc hv q).1 hq
    have hkl := ketImage_legal hd (hr t ht).2 hk
    intro he
    have hqk := idPc2ScAny_inj hv hql hqv hkl hkv he
    subst hqk
    obtain ⟨m1, m2, m3, m4⟩ := ketImage_mod hd hk
    obtain ⟨b1, b2, b3⟩ := hbig t ht
    have r1 := self_image hql.1 m1 b1
    have r2 := self_image hql.2.1 m2 b2
    have r3 := self_image hql.2.2.1 m3 b3
    exact hred.offDiag t ht ⟨Prod.ext r1 (Prod.ext r2 r3), by rw [← ho, m4]⟩
  · rw [List.pairwise_map]
    refine (List.Pairwise.imp_of_mem ?_ (triples_nodup (buildOrbIdPc_nodup hv) hred.nodup))
    rintro ⟨q, k, t⟩ ⟨q', k', t'⟩ hx hx' hnd
    obtain ⟨hq, ht, ho, hk, hkv⟩ := mem_triples.1 hx
    obtain ⟨hq', ht', ho', hk', hkv'⟩ := mem_triples.1 hx'
    obtain ⟨hql, hqv⟩ := (mem_buildOrbIdPc hv q).1 hq
    obtain ⟨hql', hqv'⟩ := (mem_buildOrbIdPc hv q').1 hq'
    have hkl := ketImage_legal hd (hr t ht).2 hk
    have hkl' := ketImage_legal hd (hr t' ht').2 hk'
    obtain ⟨m1, m2, m3, m4⟩ := ketImage_mod hd hk
    obtain ⟨m1', m2', m3', m4'⟩ := ketImage_mod hd hk'
    obtain ⟨b1, b2, b3⟩ := hbig t ht
    obtain ⟨b1', b2', b3'⟩ := hbig t' ht'
    constructor
    · rintro ⟨h1, h2⟩
      have e1 := idPc2ScAny_inj hv hql hqv hql' hqv' h1
      have e2 := idPc2ScAny_inj hv hkl hkv hkl' hkv' h2
      subst e1 e2
      apply hnd
      refine ⟨rfl, ?_, ?_⟩
      · exact Prod.ext (same_image (m1.symm.trans m1') b1 b1')
          (Prod.ext (same_image (m2.symm.trans m2') b2 b2') (same_image (m3.symm.trans m3') b3 b3'))
      · exact Prod.ext (ho.symm.trans ho') (m4.symm.trans m4')
    · rintro ⟨h1, h2⟩
      have e1 := idPc2ScAny_inj hv hql hqv hkl' hkv' h1
      have e2 := idPc2ScAny_inj hv hkl hkv hql' hqv' h2
      subst e1 e2
      apply hred.noConj t ht t' ht'
      constructor
      · exact Prod.ext (back_image hql.1 m1 m1' b1 b1')
          (Prod.ext (back_image hql.2.1 m2 m2' b2 b2') (back_image hql.2.2.1 m3 m3' b3 b3'))
      · exact Prod.ext (ho'.symm.trans m4) (m4'.symm.trans ho)

/-! ## Displacements -/

theorem siteAt_row {pcLat : Mat3 F} {origin : Vec3 F} {pcPos : ℤ → Vec3 F} {sites : List IdPc} {i : ℤ} {q : IdPc}
    (h : siteAt sites i = some q) :
    rowAt (buildOrbPos pcLat origin pcPos sites) i = orbPosRow pcLat origin pcPos q := by
  unfold siteAt at h
  split_ifs at h
  simp [rowAt, buildOrbPos, List.getD, h]

theorem mkTerm_dr {d : Dim} (hd : d.Pos) {n : ℕ} {vacs : List IdPc} (hv : LegalVacs d n vacs)
    {pbc : Pbc} {pcLat : Mat3 F} {origin : Vec3 F} {pcPos : ℤ → Vec3 F} {q k : IdPc} {t : Cell × Pair × E}
    (hql : LegalId d n q) (hqv : q ∉ vacs) (hkl : LegalId d n k) (hkv : k ∉ vacs)
    (ho : q.2.2.2 = t.2.1.1) (hk : ketImage d pbc q t = some k) :
    (mkTerm d n vacs (scLatVec pcLat d)
      (rowAt (buildOrbPos pcLat origin pcPos (buildOrbIdPc d n (vacIdSc d n vacs)))) (q, k, t)).dr =
      bondVec pcLat pcPos t := by
  obtain ⟨m1, m2, m3, m4⟩ := ketImage_mod hd hk
  have f1 : (k.1 : F) + (d.a : F) * (((q.1 + t.1.1) / d.a : ℤ) : F) = (q.1 : F) + (t.1.1 : F) := by
    rw [m1]; exact_mod_cast congrArg (Int.cast : ℤ → F) (Int.emod_add_mul_ediv (q.1 + t.1.1) d.a)
  have f2 : (k.2.1 : F) + (d.b : F) * (((q.2.1 + t.1.2.1) / d.b : ℤ) : F) = (q.2.1 : F) + (t.1.2.1 : F) := by
    rw [m2]; exact_mod_cast congrArg (Int.cast : ℤ → F) (Int.emod_add_mul_ediv (q.2.1 + t.1.2.1) d.b)
  have f3 : (k.2.2.1 : F) + (d.c : F) * (((q.2.2.1 + t.1.2.2) / d.c : ℤ) : F) = (q.2.2.1 : F) + (t.1.2.2 : F) := by
    rw [m3]; exact_mod_cast congrArg (Int.cast : ℤ → F) (Int.emod_add_mul_ediv (q.2.2.1 + t.1.2.2) d.c)
  funext x
  simp only [mkTerm, hopDr]
  rw [siteAt_row (siteAt_ket hv hql hqv), siteAt_row (siteAt_ket hv hkl hkv)]
  simp only [bondVec, frac2cartRow, orbPosRow, scLatVec, Matrix.mulVec, dotProduct, Fin.sum_univ_three,
    Matrix.transpose_apply, Pi.add_apply, Pi.zero_apply, Matrix.cons_val_zero, Matrix.cons_val_one,
    m4, ho]
  have h2 : (![(t.1.1 : F), t.1.2.1, t.1.2.2] (2 : Fin 3)) = t.1.2.2 := rfl
  rw [h2]
  linear_combination (pcLat 0 x) * f1 + (pcLat 1 x) * f2 + (pcLat 2 x) * f3

/-! ## Fast builder -/

theorem flatMap_split_perm {α β γ : Type*} (L : List α) (hops : List β) (p : β → Bool) (f : α → β → Option γ) :
    (L.flatMap (fun q => hops.filterMap (f q))).Perm
      (L.flatMap (fun q => (hops.filter p).filterMap (f q)) ++
        L.flatMap (fun q => (hops.filter (fun t => !p t)).filterMap (f q))) := by
  refine List.Perm.trans ?_ (List.flatMap_append_perm _ _ _).symm
  apply List.Perm.flatMap_left
  intro q _
  rw [← List.filterMap_append]
  exact ((List.filter_append_perm p hops).symm).filterMap _

theorem range_collect_perm {β γ : Type*} (n : ℕ) (hops : List β) (ix : β → ℤ) (f : β → γ)
    (h : ∀ t ∈ hops, 0 ≤ ix t ∧ ix t < n) :
    ((List.range n).flatMap (fun io : ℕ => hops.filterMap (fun t =>
      if (io : ℤ) = ix t then some (f t) else none))).Perm (hops.map f) := by
  induction hops with
  | nil => simp
  | cons t ts ih =>
    have hsplit : ((List.range n).flatMap (fun io : ℕ => (t :: ts).filterMap (fun t =>
        if (io : ℤ) = ix t then some (f t) else none))).Perm
        ((List.range n).flatMap (fun io : ℕ => [t].filterMap (fun t =>
          if (io : ℤ) = ix t then some (f t) else none)) ++
        (List.range n).flatMap (fun io : ℕ => ts.filterMap (fun t =>
          if (io : ℤ) = ix t then some (f t) else none))) := by
      refine List.Perm.trans (List.Perm.of_eq ?_) (List.flatMap_append_perm _ _ _).symm
      congr 1; funext io
      rw [← List.filterMap_append]; rfl
    refine hsplit.trans ?_
    rw [List.map_cons]
    have h1 : (List.range n).flatMap (fun io : ℕ => [t].filterMap (fun t =>
          if (io : ℤ) = ix t then some (f t) else none)) = [f t] := by
      obtain ⟨h0, hn⟩ := h t (by simp)
      have hsp : List.range n = List.range (ix t).toNat ++ (ix t).toNat ::
          (List.range (n - (ix t).toNat - 1)).map (fun k => (ix t).toNat + (k + 1)) := by
        conv_lhs => rw [show n = (ix t).toNat + ((n - (ix t).toNat - 1) + 1) by omega]
        rw [List.range_add, List.range_succ_eq_map, List.map_cons, List.map_map]
        simp [Function.comp_def]
      rw [hsp, List.flatMap_append, List.flatMap_cons]
      have z1 : (List.range (ix t).toNat).flatMap (fun io : ℕ => [t].filterMap (fun t =>
          if (io : ℤ) = ix t then some (f t) else none)) = [] := by
        rw [List.flatMap_eq_nil_iff]
        intro io hio
        have : ¬ ((io : ℤ) = ix t) := by simp at hio; omega
        simp [this]
      have z2 : ((List.range (n - (ix t).toNat - 1)).map (fun k => (ix t).toNat + (k + 1))).flatMap
          (fun io : ℕ => [t].filterMap (fun t =>
          if (io : ℤ) = ix t then some (f t) else none)) = [] := by
        rw [List.flatMap_eq_nil_iff]
        intro io hio
        simp only [List.mem_map] at hio
        obtain ⟨k, _, rfl⟩ := hio
        have : ¬ ((((ix t).toNat + (k + 1) : ℕ) : ℤ) = ix t) := by push_cast; omega
        rw [List.filterMap_cons, if_neg this, List.filterMap_nil]
      rw [z1, z2]
      have : (((ix t).toNat : ℕ) : ℤ) = ix t := by omega
      simp [this]
    rw [h1]
    exact (ih (fun t' ht' => h t' (by simp [ht']))).cons _

theorem legalVacs_nil (d : Dim) (n : ℕ) : LegalVacs d n [] := ⟨by simp, by simp⟩

theorem idPc2Sc_offset (d : Dim) (n : ℕ) (a b c o : ℤ) :
    idPc2Sc d n (a, b, c, 0) + o = idPc2Sc d n (a, b, c, o) := by simp [idPc2Sc]

theorem isPbcHop_iff (pbc : Pbc) (t : Cell × Pair × E) : isPbcHop pbc t = true ↔
    (pbc.1 = true ∨ t.1.1 = 0) ∧ (pbc.2.1 = true ∨ t.1.2.1 = 0) ∧ (pbc.2.2 = true ∨ t.1.2.2 = 0) := by
  obtain ⟨p1, p2, p3⟩ := pbc
  cases p1 <;> cases p2 <;> cases p3 <;> simp [isPbcHop] <;> tauto

theorem wrapImage_pbc {p : Bool} {n : ℕ} {x R : ℤ} (h : p = true ∨ R = 0) (hx : 0 ≤ x ∧ x < n) :
    wrapImage p n (x + R) = some ((x + R) % n) := by
  cases p
  · have : R = 0 := by simpa using h
    subst this
    simp [wrapImage, hx, Int.emod_eq_of_lt hx.1 hx.2]
  · simp [wrapImage]

theorem gen_pbc_term {d : Dim} (hd : d.Pos) {n : ℕ} (pbc : Pbc) (scLat : Mat3 F) (scPos : ℤ → Vec3 F)
    (c : Cell) (hc : LegalCell d c) (io : ℤ) (t : Cell × Pair × E)
    (ht : 0 ≤ t.2.1.2 ∧ t.2.1.2 < n) (hp : isPbcHop pbc t = true) (k : ℤ)
    (hk : k = idPc2Sc d n (c.1, c.2.1, c.2.2, io)) :
    genTerm d pbc n [] scLat scPos k (c.1, c.2.1, c.2.2, io) t =
      if io = t.2.1.1 then some (pbcTerm d pbc n scLat scPos c t) else none := by
  have hg := genTerm_eq hd (legalVacs_nil d n) pbc scLat scPos k (c.1, c.2.1, c.2.2, io) t ht
  have hvn : vacIdSc d n [] = [] := rfl
  rw [hvn] at hg
  rw [hg]
  simp only
  by_cases ho : io = t.2.1.1
  swap
  · rw [if_neg ho, if_neg ho]
  rw [if_pos ho, if_pos ho]
  rw [isPbcHop_iff] at hp
  have w1 := wrapImage_pbc hp.1 hc.1
  have w2 := wrapImage_pbc hp.2.1 hc.2.1
  have w3 := wrapImage_pbc hp.2.2 hc.2.2
  simp only [ketImage, w1, w2, w3, List.not_mem_nil, if_false, Option.some.injEq, pbcTerm, wrapPbc_eq hd.a,
    wrapPbc_eq hd.b, wrapPbc_eq hd.c, Option.getD_some, fastDiv_eq hd.a, fastDiv_eq hd.b, fastDiv_eq hd.c,
    idPc2ScAny, List.length_nil, if_true]
  have hi : k = idPc2Sc d n (c.1, c.2.1, c.2.2, 0) + t.2.1.1 := by
    rw [hk, ho, idPc2Sc_offset]
  by_cases hz : zeroRn t = true
  · have hz' := hz
    simp only [zeroRn, decide_eq_true_eq] at hz'
    obtain ⟨z1, z2, z3⟩ := hz'
    rw [if_pos hz, if_pos hz]
    simp only [z1, z2, z3, add_zero]
    rw [Int.emod_eq_of_lt hc.1.1 hc.1.2, Int.emod_eq_of_lt hc.2.1.1 hc.2.1.2,
      Int.emod_eq_of_lt hc.2.2.1 hc.2.2.2, Int.ediv_eq_zero_of_lt hc.1.1 hc.1.2,
      Int.ediv_eq_zero_of_lt hc.2.1.1 hc.2.1.2, Int.ediv_eq_zero_of_lt hc.2.2.1 hc.2.2.2,
      idPc2Sc_offset, idPc2Sc_offset, hk, ho]
  · rw [if_neg hz, if_neg hz, idPc2Sc_offset, idPc2Sc_offset, hk, ho]

theorem zipIdx_quads (d : Dim) (n : ℕ) :
    (quads d n).zipIdx = (quads d n).map (fun q => (q, (idPc2Sc d n q).toNat)) := by
  apply List.ext_getElem
  · simp
  · intro k h1 h2
    simp only [List.getElem_zipIdx, List.getElem_map, Nat.zero_add]
    rw [quads_get]; simp

theorem buildHopPbc_perm {d : Dim} (hd : d.Pos) {n : ℕ} (pbc : Pbc) (scLat : Mat3 F) (scPos : ℤ → Vec3 F)
    (hops : List (Cell × Pair × E)) (hr : HopsInRange n hops) (hp : ∀ t ∈ hops, isPbcHop pbc t = true) :
    (buildHopGen hops d pbc n (quads d n) [] scLat scPos).Perm (buildHopPbc hops d pbc n scLat scPos) := by
  unfold buildHopGen buildHopPbc
  rw [zipIdx_quads, List.flatMap_map]
  conv_lhs => unfold quads
  rw [List.flatMap_assoc]
  apply List.Perm.flatMap_left
  intro c hc
  rw [mem_cellLoop] at hc
  rw [List.flatMap_map]
  refine List.Perm.trans (List.Perm.of_eq ?_)
    (range_collect_perm n hops (fun t => t.2.1.1) (pbcTerm d pbc n scLat scPos c) (fun t ht => (hr t ht).1))
  apply List.flatMap_congr
  intro io hio
  apply List.filterMap_congr
  intro t ht
  have hleg : LegalId d n (c.1, c.2.1, c.2.2, (io : ℤ)) :=
    ⟨hc.1, hc.2.1, hc.2.2, by simp at hio ⊢; omega⟩
  have := (idPc2Sc_range hleg).1
  exact gen_pbc_term hd pbc scLat scPos c hc io t (hr t ht).2 (hp t ht) _ (by omega)

theorem initHopFast_perm {d : Dim} (hd : d.Pos) {n : ℕ} (pbc : Pbc) (scLat : Mat3 F) (scPos : ℤ → Vec3 F)
    (hops : List (Cell × Pair × E)) (hr : HopsInRange n hops) :
    (initHopFast hops d pbc n (buildOrbIdPc d n []) [] scLat scPos).Perm
      (buildHopGen hops d pbc n (buildOrbIdPc d n []) [] scLat scPos) := by
  have hq : buildOrbIdPc d n [] = quads d n := by
    have := buildOrbIdPc_eq (legalVacs_nil d n)
    simpa [vacIdSc] using this
  rw [hq]
  unfold initHopFast splitPcHop
  have hs : (buildHopGen hops d pbc n (quads d n) [] scLat scPos).Perm
      (buildHopGen (hops.filter (isPbcHop pbc)) d pbc n (quads d n) [] scLat scPos ++
        buildHopGen (hops.filter (fun t => !isPbcHop pbc t)) d pbc n (quads d n) [] scLat scPos) := by
    unfold buildHopGen
    exact flatMap_split_perm (quads d n).zipIdx hops (isPbcHop pbc)
      (fun p => genTerm d pbc n [] scLat scPos p.2 p.1)
  refine List.Perm.trans ?_ hs.symm
  apply List.Perm.append_right
  exact (buildHopPbc_perm hd pbc scLat scPos _
    (fun t ht => hr t (List.mem_of_mem_filter ht)) (fun t ht => (List.mem_filter.1 ht).2)).symm

end Verif

import Verif.Spec.Neighbors
import Verif.Proof.Sample
import Mathlib.Data.List.GetD
import Mathlib.Data.List.Nodup
import Mathlib.Data.List.Sort
import Mathlib.Tactic.Linarith
import Mathlib.Tactic.NormNum

/-! # Properties of the neighbour search (C70) -/

namespace Verif.Props

open Verif

theorem mem_symRange (m x : ℤ) : x ∈ symRange m ↔ |x| ≤ m := by
  unfold symRange
  rw [List.mem_map, abs_le]
  constructor
  · rintro ⟨k, hk, rfl⟩
    rw [List.mem_range] at hk
    omega
  · rintro ⟨h1, h2⟩
    exact ⟨(x + m).toNat, List.mem_range.2 (by omega), by omega⟩

theorem symRange_nodup (m : ℤ) : (symRange m).Nodup := by
  unfold symRange
  apply List.Nodup.map _ List.nodup_range
  intro x y h
  have : (-m + (x : ℤ)) = -m + (y : ℤ) := h
  omega

theorem mem_neighborRn (a b c : ℤ) (rn : Cell) :
    rn ∈ neighborRn a b c ↔ |rn.1| ≤ a ∧ |rn.2.1| ≤ b ∧ |rn.2.2| ≤ c := by
  unfold neighborRn
  simp only [List.mem_flatMap, List.mem_map, mem_symRange]
  constructor
  · rintro ⟨x, hx, y, hy, z, hz, rfl⟩
    exact ⟨hx, hy, hz⟩
  · rintro ⟨hx, hy, hz⟩
    exact ⟨_, hx, _, hy, _, hz, rfl⟩

theorem nodup_flatMap_key {A B C : Type*} (key : B → C) (f : A → List B) (k : A → C → Prop) (L : List A)
    (hL : L.Nodup) (h1 : ∀ a ∈ L, ((f a).map key).Nodup) (h2 : ∀ a ∈ L, ∀ b ∈ f a, k a (key b))
    (h3 : ∀ a a' x, k a x → k a' x → a = a') : ((L.flatMap f).map key).Nodup := by
  induction L with
  | nil => simp
  | cons a L ih =>
    rw [List.flatMap_cons, List.map_append]
    rw [List.nodup_cons] at hL
    refine List.Nodup.append (h1 a (List.mem_cons_self ..))
      (ih hL.2 (fun b hb => h1 b (List.mem_cons_of_mem _ hb)) (fun b hb => h2 b (List.mem_cons_of_mem _ hb))) ?_
    intro x hx hx'
    obtain ⟨b, hb, rfl⟩ := List.mem_map.1 hx
    obtain ⟨b', hb', he⟩ := List.mem_map.1 hx'
    obtain ⟨a', ha', hb'⟩ := List.mem_flatMap.1 hb'
    have := h3 a a' (key b) (h2 a (List.mem_cons_self ..) b hb) (he ▸ h2 a' (List.mem_cons_of_mem _ ha') b' hb')
    exact hL.1 (this ▸ ha')

theorem neighborRn_nodup (a b c : ℤ) : (neighborRn a b c).Nodup := by
  have h : ((neighborRn a b c).map id).Nodup := by
    unfold neighborRn
    apply nodup_flatMap_key id _ (fun x rn => rn.1 = x) _ (symRange_nodup a)
    · intro x _
      apply nodup_flatMap_key id _ (fun y rn => rn.2.1 = y) _ (symRange_nodup b)
      · intro y _
        rw [List.map_id]
        apply List.Nodup.map _ (symRange_nodup c)
        intro z z' h
        have : (x, y, z) = (x, y, z') := h
        simpa using this
      · intro y _ rn hrn
        obtain ⟨z, _, rfl⟩ := List.mem_map.1 hrn
        rfl
      · intro y y' rn h h'; exact h.symm.trans h'
    · intro x _ rn hrn
      obtain ⟨y, _, hrn⟩ := List.mem_flatMap.1 hrn
      obtain ⟨z, _, rfl⟩ := List.mem_map.1 hrn
      rfl
    · intro x x' rn h h'; exact h.symm.trans h'
  simpa using h

theorem cellShift_eq (lat : Mat3 ℝ) (rn : Cell) :
    cellShift lat rn = Matrix.vecMul (![(rn.1 : ℝ), (rn.2.1 : ℝ), (rn.2.2 : ℝ)]) lat := by
  funext x
  simp [cellShift, Matrix.vecMul, dotProduct, Fin.sum_univ_three]

theorem mem_nbCell {tree : DistMatrix} (ht : IsDistMatrix tree) (A B : List (Vec3 ℝ)) (lat : Mat3 ℝ) (m : ℝ) (rn : Cell)
    (t : NbTerm) : t ∈ nbCell tree A B lat m rn ↔ t.rn = rn ∧ ∃ p q, A[t.pair.1]? = some p ∧ B[t.pair.2]? = some q ∧
      t.rij = q + cellShift lat rn - p ∧ t.distance = norm3 t.rij ∧ 0 < t.distance ∧ t.distance ≤ m := by
  unfold nbCell
  simp only [List.mem_filterMap]
  constructor
  · rintro ⟨e, he, hif⟩
    split_ifs at hif with hpos
    cases hif
    obtain ⟨p, q', hp, hq', hd, hm⟩ := ht.sound _ _ _ _ he
    rw [List.getElem?_map, Option.map_eq_some_iff] at hq'
    obtain ⟨q, hq, rfl⟩ := hq'
    · refine ⟨rfl, p, q, hp, hq, ?_, ?_, hpos, hm⟩
      · simp only [List.getD_eq_getElem?_getD, List.getElem?_map, hq, hp, Option.map_some, Option.getD_some]
      · simp only [List.getD_eq_getElem?_getD, List.getElem?_map, hq, hp, Option.map_some, Option.getD_some]
        exact hd
  · rintro ⟨rfl, p, q, hp, hq, hr, hd, hpos, hm⟩
    refine ⟨(t.pair, t.distance), ?_, ?_⟩
    · rw [hd, hr]
      rw [hd, hr] at hpos hm
      exact ht.complete _ _ _ t.pair.1 t.pair.2 p _ hp (by rw [List.getElem?_map, hq]; rfl) hpos hm
    · rw [if_pos hpos]
      simp only [List.getD_eq_getElem?_getD, List.getElem?_map, hq, hp, Option.map_some, Option.getD_some, ← hr]

/-- **C70.** The search returns exactly the pairs that should be found, with their displacement and distance; no pair is
returned twice; the terms are sorted by distance. -/
theorem C70_search {tree : DistMatrix} (ht : IsDistMatrix tree) (posBra posKet : List (Vec3 ℝ)) (lat : Mat3 ℝ)
    (a b c : ℤ) (dmax : ℝ) :
    (∀ t, t ∈ nbSearch tree posBra posKet lat a b c dmax ↔ IsNeighbor posBra posKet lat a b c dmax t) ∧
    ((nbSearch tree posBra posKet lat a b c dmax).map fun t => (t.rn, t.pair)).Nodup ∧
    (nbSearch tree posBra posKet lat a b c dmax).Pairwise (fun s t => s.distance ≤ t.distance) := by
  have hperm : (nbSearch tree posBra posKet lat a b c dmax).Perm
      ((neighborRn a b c).flatMap (nbCell tree posBra posKet lat dmax)) := List.mergeSort_perm _ _
  refine ⟨fun t => ?_, ?_, ?_⟩
  · rw [hperm.mem_iff, List.mem_flatMap]
    simp only [mem_nbCell ht]
    unfold IsNeighbor
    constructor
    · rintro ⟨rn, hrn, rfl, h⟩
      obtain ⟨h1, h2, h3⟩ := (mem_neighborRn a b c _).1 hrn
      rw [cellShift_eq] at h
      exact ⟨h1, h2, h3, h⟩
    · rintro ⟨h1, h2, h3, h⟩
      rw [← cellShift_eq] at h
      exact ⟨t.rn, (mem_neighborRn a b c _).2 ⟨h1, h2, h3⟩, rfl, h⟩
  · rw [(hperm.map _).nodup_iff]
    apply nodup_flatMap_key _ _ (fun rn x => x.1 = rn) _ (neighborRn_nodup a b c)
    · intro rn _
      unfold nbCell
      have hn := ht.nodup posBra (posKet.map fun p => p + cellShift lat rn) dmax
      dsimp only
      generalize tree posBra (posKet.map fun p => p + cellShift lat rn) dmax = L at hn ⊢
      induction L with
      | nil => simp
      | cons e L ih =>
        rw [List.map_cons, List.nodup_cons] at hn
        rw [List.filterMap_cons]
        split
        · exact ih hn.2
        · rename_i t ht'
          rw [List.map_cons, List.nodup_cons]
          refine ⟨?_, ih hn.2⟩
          intro hmem
          obtain ⟨t', ht1, ht2⟩ := List.mem_map.1 hmem
          obtain ⟨e', he', hif⟩ := List.mem_filterMap.1 ht1
          split_ifs at ht' hif
          cases ht'; cases hif
          simp only [Prod.mk.injEq, true_and] at ht2
          exact hn.1 (ht2 ▸ List.mem_map_of_mem he')
    · intro rn _ t ht'
      exact ((mem_nbCell ht _ _ _ _ _ t).1 ht').1
    · intro rn rn' x h h'; exact h.symm.trans h'
  · have := List.pairwise_mergeSort (le := fun s t : NbTerm => @decide (s.distance ≤ t.distance) (Classical.dec _))
      (fun x y z h1 h2 => by
        simp only [decide_eq_true_eq] at h1 h2 ⊢
        exact h1.trans h2)
      (fun x y => by
        simp only [Bool.or_eq_true, decide_eq_true_eq]
        exact le_total _ _) ((neighborRn a b c).flatMap (nbCell tree posBra posKet lat dmax))
    refine List.Pairwise.imp ?_ this
    intro s t h
    simpa using h

theorem norm3_neg (v : Vec3 ℝ) : norm3 (-v) = norm3 v := by
  unfold norm3
  simp

/-- **C70 (opposite pairs).** Within one cell every term comes with its opposite: pair and cell index reversed, opposite
displacement, same distance. -/
theorem C70_opposite {tree : DistMatrix} (ht : IsDistMatrix tree) (pos : List (Vec3 ℝ)) (lat : Mat3 ℝ)
    (a b c : ℤ) (dmax : ℝ) (t : NbTerm) (h : t ∈ nbSearch tree pos pos lat a b c dmax) :
    (⟨(-t.rn.1, -t.rn.2.1, -t.rn.2.2), (t.pair.2, t.pair.1), -t.rij, t.distance⟩ : NbTerm) ∈
      nbSearch tree pos pos lat a b c dmax := by
  rw [(C70_search ht pos pos lat a b c dmax).1] at h ⊢
  obtain ⟨h1, h2, h3, p, q, hp, hq, hr, hd, hpos, hm⟩ := h
  refine ⟨by simpa using h1, by simpa using h2, by simpa using h3, q, p, hq, hp, ?_, ?_, hpos, hm⟩
  · rw [hr, ← cellShift_eq, ← cellShift_eq (rn := (-t.rn.1, -t.rn.2.1, -t.rn.2.2))]
    funext x
    simp [cellShift]
    ring
  · rw [norm3_neg]; exact hd

/-- **C70 (primitive cells).** `find_neighbors` on primitive cells whose position arrays are up to date (C08): cells without
orbitals are refused, otherwise the search is over the Cartesian positions of the orbitals and images under the lattice of
the ket. -/
theorem C70_prim {Λ : Type*} (H : HashFns ℝ ℂ Λ) (HS : SCHash ℝ ℂ Λ) (tree : DistMatrix) (p q : PrimCell ℝ ℂ Λ)
    (hp : (PrimCell.syncOrb H p false).arrPos = p.orbs.map Orbital.position)
    (hq : (PrimCell.syncOrb H q false).arrPos = q.orbs.map Orbital.position) (a b c : ℤ) (dmax : ℝ) :
    findNeighbors H HS tree (.prim p) (some (.prim q)) a b c dmax =
      (if p.orbs = [] ∨ q.orbs = [] then .error .orbEmpty else
        .ok (nbSearch tree (p.orbs.map fun o => Matrix.vecMul o.position p.lat + p.origin)
          (q.orbs.map fun o => Matrix.vecMul o.position q.lat + q.origin) q.lat a b c dmax)) ∧
    findNeighbors H HS tree (.prim p) none a b c dmax = findNeighbors H HS tree (.prim p) (some (.prim p)) a b c dmax := by
  have hc : ∀ p : PrimCell ℝ ℂ Λ, (PrimCell.syncOrb H p false).lat = p.lat ∧ (PrimCell.syncOrb H p false).origin = p.origin := by
    intro p
    unfold PrimCell.syncOrb
    dsimp only
    split <;> exact ⟨rfl, rfl⟩
  have hpos : ∀ p : PrimCell ℝ ℂ Λ, (PrimCell.syncOrb H p false).arrPos = p.orbs.map Orbital.position →
      (primPosNm H p).2 = p.orbs.map fun o => Matrix.vecMul o.position p.lat + p.origin := by
    intro p hp
    unfold primPosNm frac2cart frac2cartRow
    simp only [hp, (hc p).1, (hc p).2, List.map_map]
    apply List.map_congr_left
    intro o _
    simp only [Function.comp, Matrix.mulVec_transpose]
  have hone : ∀ p : PrimCell ℝ ℂ Λ, (primPosNm H p).1.lat = p.lat := fun p => (hc p).1
  have htwo : primPosNm H (primPosNm H p).1 = primPosNm H p := by
    have : PrimCell.syncOrb H (PrimCell.syncOrb H p false) false = PrimCell.syncOrb H p false := by
      unfold PrimCell.syncOrb
      by_cases h : p.hashOrb = H.orb p.orbs <;> simp [h]
    unfold primPosNm
    simp only [this]
  have hz : ∀ p : PrimCell ℝ ℂ Λ, p.numOrb = 0 ↔ p.orbs = [] := by
    intro p
    unfold PrimCell.numOrb
    exact List.length_eq_zero_iff
  constructor
  · unfold findNeighbors
    simp only [hz]
    by_cases h1 : p.orbs = []
    · simp [h1]
    · by_cases h2 : q.orbs = []
      · simp [h1, h2]
      · simp only [h1, h2, or_self, if_false, hpos p hp, hpos q hq, hone]
  · unfold findNeighbors
    simp only [hz]
    by_cases h1 : p.orbs = []
    · simp [h1]
    · simp only [h1, if_false, htwo]

/-- **C70 (supercells).** For a supercell reached by any history, with the default (identity) position modifier, whose
synchronisation succeeds: the search is over the Cartesian positions of its sites and the lattice of the supercell. -/
theorem C70_super {Λ : Type*} {H : HashFns ℝ ℂ Λ} {HS : SCHash ℝ ℂ Λ} (tree : DistMatrix) {pc0 : PrimCell ℝ ℂ Λ}
    {s : SCell ℝ ℂ Λ} (hp : PrimCell.Reach H pc0) (h : SCell.Reach H HS pc0 s) (hpm : s.posMod = id)
    (hok : (SCell.syncArray HS s false).2 = .ok ()) (a b c : ℤ) (dmax : ℝ) :
    let sites := buildOrbIdPc s.dim pc0.numOrb (vacIdSc s.dim pc0.numOrb s.vacs)
    let pos := sites.map fun q => Matrix.vecMul
      (![(q.1 : ℝ), (q.2.1 : ℝ), (q.2.2.1 : ℝ)] + (pc0.orbs.map Orbital.position).getD q.2.2.2.toNat 0) pc0.lat + pc0.origin
    findNeighbors H HS tree (.sup s) none a b c dmax =
      .ok (nbSearch tree pos pos (fun r => (![(s.dim.a : ℝ), s.dim.b, s.dim.c] r) • pc0.lat r) a b c dmax) := by
  intro sites pos
  obtain ⟨V, hV, hs, hG⟩ := SCell.Reach.good hp h
  obtain ⟨g1, g2, -, g4, g5, g6, -, g8, g9⟩ := SCell.good_sync hV hG hs false
  have hidem := SCell.sync_idem (HS := HS) (s := s) ⟨hG.locked, hG.legal⟩
  have hfr := g9 hok
  have e : SCell.syncArray HS s false = ((SCell.syncArray HS s false).1, .ok ()) := by rw [← hok]
  have e2 := hidem
  rw [hok] at e2
  have hn : (SCell.syncArray HS s false).1.pc.numOrb = pc0.numOrb := by unfold PrimCell.numOrb; rw [g1.same.orbs]
  have hpos : (SCell.syncArray HS s false).1.orbPos H = pos := by
    unfold SCell.orbPos
    rw [g6, hpm, id, (PrimCell.syncOrb_fresh g1.sync false).1, g1.same.orbs, g1.same.lat, g1.same.origin, hfr.orb, hfr.vac,
      hn, g2, g4]
    unfold buildOrbPos
    apply List.map_congr_left
    intro q _
    funext x
    simp only [orbPosRow, rowAt, Matrix.vecMul, dotProduct, Fin.sum_univ_three, Pi.add_apply]
    generalize (pc0.orbs.map Orbital.position).getD q.2.2.2.toNat 0 = v
    show _ = ((q.1 : ℝ) + v 0) * _ + ((q.2.1 : ℝ) + v 1) * _ + ((q.2.2.1 : ℝ) + v 2) * _ + _
    ring
  have hlat : scLatVec (SCell.syncArray HS s false).1.pc.lat (SCell.syncArray HS s false).1.dim =
      fun r => (![(s.dim.a : ℝ), s.dim.b, s.dim.c] r) • pc0.lat r := by
    rw [g1.same.lat, g4]
    funext r x
    fin_cases r <;> simp [scLatVec, mul_comm]
  unfold findNeighbors
  simp only
  rw [e]
  simp only
  rw [e2]
  simp only [hpos, hlat]

/-- What is assumed about the distance matrix can be met. -/
theorem distMatrix_exists : ∃ tree, IsDistMatrix tree := by
  classical
  refine ⟨fun A B m => ((List.range A.length ×ˢ List.range B.length).filter fun e =>
    decide (norm3 (B.getD e.2 0 - A.getD e.1 0) ≤ m)).map fun e => (e, norm3 (B.getD e.2 0 - A.getD e.1 0)), ?_, ?_, ?_⟩
  · intro A B m
    rw [List.map_map]
    have : (Prod.fst ∘ fun e : ℕ × ℕ => (e, norm3 (B.getD e.2 0 - A.getD e.1 0))) = id := rfl
    rw [this, List.map_id]
    exact (List.Nodup.product List.nodup_range List.nodup_range).filter _
  · intro A B m e he
    obtain ⟨x, hx, rfl⟩ := List.mem_map.1 he
    obtain ⟨hx, hm⟩ := List.mem_filter.1 hx
    rw [← Prod.mk.eta (p := x), List.mem_product, List.mem_range, List.mem_range] at hx
    refine ⟨A[x.1], B[x.2], List.getElem?_eq_getElem hx.1, List.getElem?_eq_getElem hx.2, ?_, by simpa using hm⟩
    simp only [List.getD_eq_getElem _ _ hx.1, List.getD_eq_getElem _ _ hx.2]
  · intro A B m i j p q hp hq _ hm
    obtain ⟨hi, rfl⟩ := List.getElem?_eq_some_iff.1 hp
    obtain ⟨hj, rfl⟩ := List.getElem?_eq_some_iff.1 hq
    refine List.mem_map.2 ⟨(i, j), List.mem_filter.2 ⟨?_, ?_⟩, ?_⟩
    · exact List.mem_product.2 ⟨List.mem_range.2 hi, List.mem_range.2 hj⟩
    · simpa [hi, hj] using hm
    · simp [hi, hj]

/-- Two orbitals at distance 1 in a cubic cell of length 3: within distance 2 there are the two bonds inside the cell and
the bonds across the boundary, not the images of an orbital (distance 3). -/
example (tree : DistMatrix) (ht : IsDistMatrix tree) :
    (⟨(-1, 0, 0), (0, 1), ![-2, 0, 0], 2⟩ : NbTerm) ∈
      nbSearch tree [0, ![1, 0, 0]] [0, ![1, 0, 0]] (Matrix.diagonal fun _ => 3) 1 0 0 2 ∧
    (⟨(1, 0, 0), (0, 0), ![3, 0, 0], 3⟩ : NbTerm) ∉
      nbSearch tree [0, ![1, 0, 0]] [0, ![1, 0, 0]] (Matrix.diagonal fun _ => 3) 1 0 0 2 := by
  rw [(C70_search ht _ _ _ _ _ _ _).1, (C70_search ht _ _ _ _ _ _ _).1]
  constructor
  · refine ⟨by simp, by simp, by simp, 0, ![1, 0, 0], rfl, rfl, ?_, ?_, by norm_num, le_refl _⟩
    · funext x
      fin_cases x <;> simp [Matrix.vecMul, dotProduct, Fin.sum_univ_three, Matrix.diagonal, Matrix.vecHead, Matrix.vecTail]
      norm_num
    · simp [norm3]
  · rintro ⟨-, -, -, p, q, -, -, -, -, -, h⟩
    norm_num at h

end Verif.Props

import Verif.Spec.Plot
import Verif.Proof.SuperCell
import Verif.Proof.SuperMod
import Verif.Proof.PrimSync
import Verif.Proof.Spin
import Verif.Proof.Sample
import Mathlib.Tactic.FinCases

/-!
# Lemmas on figures
-/

namespace Verif.PlotSpec

open Plot

/-- The direction not shown. -/
def third (x y : Fin 3) : Fin 3 := -(x + y)

theorem newViewer_ok (lat : Mat3 ℝ) (origin : Vec3 ℝ) {view : String} {x y : Fin 3} (h : Shows view x y) :
    newViewer lat origin view = .ok ⟨x, y, third x y, lat, origin⟩ := by
  obtain ⟨h1, rfl⟩ := h
  fin_cases x <;> fin_cases y <;> first | exact absurd rfl h1 | rfl

theorem newViewer_err (lat : Mat3 ℝ) (origin : Vec3 ℝ) {view : String} (h : ∀ x y, ¬ Shows view x y) :
    newViewer lat origin view = .error .value := by
  unfold newViewer
  rw [if_pos]
  intro hm
  simp only [List.mem_cons, List.not_mem_nil, or_false] at hm
  rcases hm with rfl | rfl | rfl | rfl | rfl | rfl
  · exact h 0 1 ⟨by decide, rfl⟩
  · exact h 1 2 ⟨by decide, rfl⟩
  · exact h 2 0 ⟨by decide, rfl⟩
  · exact h 1 0 ⟨by decide, rfl⟩
  · exact h 2 1 ⟨by decide, rfl⟩
  · exact h 0 2 ⟨by decide, rfl⟩

theorem row_ok {pos : List (Vec3 ℝ)} {i : ℤ} (h0 : 0 ≤ i) (h1 : i < pos.length) : row false pos i = .ok (pos.getD i.toNat 0) := by
  unfold row pyIndex
  simp [h0, h1]

theorem segs_append (st : Style) (a b : List Cmd) : segs st (a ++ b) = segs st a ++ segs st b := by
  simp [segs, List.flatMap_append]

theorem dots_append (a b : List Cmd) : dots (a ++ b) = dots a ++ dots b := by
  simp [dots, List.flatMap_append]

/-- Ends of the segments of a term. -/
noncomputable def endsOf (o : Opts) (pb pk : List (Vec3 ℝ)) (t : SCHop ℝ ℂ) : List (Vec3 ℝ × Vec3 ℝ) :=
  if o.cutoff ≤ ‖t.v‖ then
    (pb.getD t.i.toNat 0, pb.getD t.i.toNat 0 + t.dr) ::
      (if o.withConj then [(pk.getD t.j.toNat 0, pk.getD t.j.toNat 0 - t.dr)] else [])
  else []

theorem termEnds_ok (o : Opts) {pb pk : List (Vec3 ℝ)} {t : SCHop ℝ ℂ} (hi : 0 ≤ t.i ∧ t.i < pb.length)
    (hj : o.withConj = true → 0 ≤ t.j ∧ t.j < pk.length) : termEnds o false pb pk t = .ok (endsOf o pb pk t) := by
  unfold termEnds endsOf
  by_cases hc : o.cutoff ≤ ‖t.v‖
  · rw [if_pos hc, if_pos hc, row_ok hi.1 hi.2]
    cases hw : o.withConj with
    | false => rfl
    | true =>
      obtain ⟨h0, h1⟩ := hj hw
      simp only [if_true]
      rw [row_ok h0 h1]
      rfl
  · rw [if_neg (by simpa using hc), if_neg hc]

theorem hopCmds_ok (v : Viewer) (o : Opts) {pb pk : List (Vec3 ℝ)} {ts : List (SCHop ℝ ℂ)} (hi : ∀ t ∈ ts, 0 ≤ t.i ∧ t.i < pb.length)
    (hj : o.withConj = true → ∀ t ∈ ts, 0 ≤ t.j ∧ t.j < pk.length) :
    ∃ cs, hopCmds v o false pb pk ts = .ok cs ∧ segs .hop cs = (ts.flatMap (endsOf o pb pk)).map (fun s => (v.proj s.1, v.proj s.2)) ∧
      dots cs = [] ∧ segs .cell cs = [] := by
  unfold hopCmds
  rw [mapM_all_ok _ (endsOf o pb pk) ts fun t ht => termEnds_ok o (hi t ht) fun hw => hj hw t ht]
  refine ⟨_, rfl, ?_⟩
  rw [← List.flatMap_def]
  generalize ts.flatMap (endsOf o pb pk) = l
  cases o.arrows with
  | false => simp [segs, dots]
  | true =>
    simp only [if_true]
    refine ⟨?_, ?_, ?_⟩
    · unfold segs
      rw [List.flatMap_map, ← List.flatMap_singleton' (l.map _), List.flatMap_map]
      refine List.flatMap_congr fun s _ => ?_
      simp [Viewer.arrow]
    · unfold dots
      rw [List.flatMap_map]
      exact List.flatMap_eq_nil_iff.2 fun _ _ => rfl
    · unfold segs
      rw [List.flatMap_map]
      exact List.flatMap_eq_nil_iff.2 fun _ _ => rfl

theorem foldl_min_spec {A : Type*} (f : A → ℤ) (L : List A) : ∀ z : ℤ, (∀ a ∈ L, L.foldl (fun m a => min m (f a)) z ≤ f a) ∧
    L.foldl (fun m a => min m (f a)) z ≤ z ∧ (L.foldl (fun m a => min m (f a)) z = z ∨ ∃ a ∈ L, L.foldl (fun m a => min m (f a)) z = f a) := by
  induction L with
  | nil => intro z; simp
  | cons b L ih =>
    intro z
    obtain ⟨h1, h2, h3⟩ := ih (min z (f b))
    rw [List.foldl_cons]
    refine ⟨?_, h2.trans (min_le_left _ _), ?_⟩
    · intro a ha
      rcases List.mem_cons.1 ha with rfl | ha
      · exact h2.trans (min_le_right _ _)
      · exact h1 a ha
    · rcases h3 with h3 | ⟨a, ha, h3⟩
      · rcases min_choice z (f b) with h | h
        · left; rw [h3, h]
        · right; exact ⟨b, List.mem_cons_self .., by rw [h3, h]⟩
      · right; exact ⟨a, List.mem_cons_of_mem _ ha, h3⟩

theorem foldl_max_spec {A : Type*} (f : A → ℤ) (L : List A) : ∀ z : ℤ, (∀ a ∈ L, f a ≤ L.foldl (fun m a => max m (f a)) z) ∧
    z ≤ L.foldl (fun m a => max m (f a)) z ∧ (L.foldl (fun m a => max m (f a)) z = z ∨ ∃ a ∈ L, L.foldl (fun m a => max m (f a)) z = f a) := by
  induction L with
  | nil => intro z; simp
  | cons b L ih =>
    intro z
    obtain ⟨h1, h2, h3⟩ := ih (max z (f b))
    rw [List.foldl_cons]
    refine ⟨?_, (le_max_left _ _).trans h2, ?_⟩
    · intro a ha
      rcases List.mem_cons.1 ha with rfl | ha
      · exact (le_max_right _ _).trans h2
      · exact h1 a ha
    · rcases h3 with h3 | ⟨a, ha, h3⟩
      · rcases max_choice z (f b) with h | h
        · left; rw [h3, h]
        · right; exact ⟨b, List.mem_cons_self .., by rw [h3, h]⟩
      · right; exact ⟨a, List.mem_cons_of_mem _ ha, h3⟩

theorem comp_along (R : Cell) (c : Fin 3) : comp R c = along c R := rfl

theorem colRange_spec {ind : List Cell} (h : ind ≠ []) (c : Fin 3) : ∃ r, colRange ind c = some r ∧
    (∀ R ∈ ind, r.1 ≤ along c R ∧ along c R ≤ r.2) ∧ (∃ R ∈ ind, along c R = r.1) ∧ ∃ R ∈ ind, along c R = r.2 := by
  cases ind with
  | nil => exact absurd rfl h
  | cons R Rs =>
    refine ⟨_, rfl, ?_⟩
    obtain ⟨h1, h2, h3⟩ := foldl_min_spec (fun S => comp S c) Rs (comp R c)
    obtain ⟨g1, g2, g3⟩ := foldl_max_spec (fun S => comp S c) Rs (comp R c)
    refine ⟨?_, ?_, ?_⟩
    · intro S hS
      rcases List.mem_cons.1 hS with rfl | hS
      · exact ⟨h2, g2⟩
      · exact ⟨h1 S hS, g1 S hS⟩
    · rcases h3 with h3 | ⟨a, ha, h3⟩
      · exact ⟨R, List.mem_cons_self .., h3.symm⟩
      · exact ⟨a, List.mem_cons_of_mem _ ha, h3.symm⟩
    · rcases g3 with h3 | ⟨a, ha, h3⟩
      · exact ⟨R, List.mem_cons_self .., h3.symm⟩
      · exact ⟨a, List.mem_cons_of_mem _ ha, h3.symm⟩

variable {Λ : Type*}

/-- The range of cells plotted. -/
theorem rnRange_ok (s : PrimCell ℝ ℂ Λ) (o : Opts) : ∃ r, Plot.rnRange o.withConj s.hops.toList.length (s.hops.toList.map Prod.fst) = .ok r ∧
    ∀ R, Shown s o R ↔ ∀ c, (r c).1 ≤ along c R ∧ along c R ≤ (r c).2 := by
  unfold Plot.rnRange
  by_cases h : s.hops.toList = []
  · rw [h]
    refine ⟨_, rfl, ?_⟩
    intro R
    unfold Shown
    rw [if_pos (Or.inr h), h]
    simp only [List.not_mem_nil, false_and, exists_false, or_false]
    exact forall_congr' fun c => ⟨fun h => by simp [h], fun h => by have h1 : (0 : ℤ) ≤ along c R ∧ along c R ≤ 0 := h; omega⟩
  · have hne : s.hops.toList.map Prod.fst ≠ [] := by simpa using h
    rw [if_pos (by simpa [List.length_pos_iff] using h)]
    obtain ⟨a, ha, ha1, ha2, ha3⟩ := colRange_spec hne 0
    obtain ⟨b, hb, hb1, hb2, hb3⟩ := colRange_spec hne 1
    obtain ⟨d, hd, hd1, hd2, hd3⟩ := colRange_spec hne 2
    rw [ha, hb, hd]
    refine ⟨_, rfl, ?_⟩
    intro R
    have key : ∀ (c : Fin 3) (r : ℤ × ℤ), (∀ R ∈ s.hops.toList.map Prod.fst, r.1 ≤ along c R ∧ along c R ≤ r.2) →
        (∃ R ∈ s.hops.toList.map Prod.fst, along c R = r.1) → (∃ R ∈ s.hops.toList.map Prod.fst, along c R = r.2) → ∀ z : ℤ,
        ((if o.withConj = true then (min r.1 (min r.2 (min (-r.1) (-r.2))), max r.1 (max r.2 (max (-r.1) (-r.2)))) else r).1 ≤ z ∧
          z ≤ (if o.withConj = true then (min r.1 (min r.2 (min (-r.1) (-r.2))), max r.1 (max r.2 (max (-r.1) (-r.2)))) else r).2) ↔
        if o.withConj = true then z = 0 ∨ ∃ t ∈ s.hops.toList, |z| ≤ |along c t.1|
        else ∃ t ∈ s.hops.toList, ∃ u ∈ s.hops.toList, along c t.1 ≤ z ∧ z ≤ along c u.1 := by
      intro c r h1 h2 h3 z
      obtain ⟨_, hm2, h2⟩ := h2
      obtain ⟨t, ht, rfl⟩ := List.mem_map.1 hm2
      obtain ⟨_, hm3, h3⟩ := h3
      obtain ⟨u, hu, rfl⟩ := List.mem_map.1 hm3
      split_ifs
      · dsimp only
        rw [← h2, ← h3]
        constructor
        · intro hz
          right
          by_cases hle : |along c u.1| ≤ |along c t.1|
          · refine ⟨t, ht, ?_⟩
            simp only [abs_le, abs, sup_le_iff, le_sup_iff, min_le_iff, le_max_iff] at *
            omega
          · refine ⟨u, hu, ?_⟩
            simp only [abs_le, abs, sup_le_iff, le_sup_iff, min_le_iff, le_max_iff] at *
            omega
        · rintro (rfl | ⟨w, hw, hz⟩)
          · simp only [min_le_iff, le_max_iff]
            omega
          · obtain ⟨g1, g2⟩ := h1 w.1 (List.mem_map_of_mem hw)
            rw [← h2] at g1
            rw [← h3] at g2
            simp only [abs_le, abs, sup_le_iff, le_sup_iff, min_le_iff, le_max_iff] at *
            omega
      · constructor
        · rintro ⟨g1, g2⟩
          exact ⟨t, ht, u, hu, by rw [h2]; exact g1, by rw [h3]; exact g2⟩
        · rintro ⟨t', ht', u', hu', g1, g2⟩
          exact ⟨(h1 _ (List.mem_map_of_mem ht')).1.trans g1, g2.trans (h1 _ (List.mem_map_of_mem hu')).2⟩
    unfold Shown
    have h3 : ∀ p : Fin 3 → Prop, (∀ c, p c) ↔ p 0 ∧ p 1 ∧ p 2 := fun p => by
      constructor
      · intro h; exact ⟨h 0, h 1, h 2⟩
      · rintro ⟨h0, h1, h2⟩ c; fin_cases c <;> assumption
    have k0 := key 0 a ha1 ha2 ha3 (along 0 R)
    have k1 := key 1 b hb1 hb2 hb3 (along 1 R)
    have k2 := key 2 d hd1 hd2 hd3 (along 2 R)
    have he : (o.withConj = true ∨ s.hops.toList = []) ↔ o.withConj = true := by simp [h]
    rw [h3 fun c => (_ ≤ along c R ∧ _)]
    by_cases hw : o.withConj = true
    · rw [if_pos (he.2 hw), h3]
      simp only [hw, if_true] at k0 k1 k2
      rw [← k0, ← k1, ← k2]
      simp [hw]
    · rw [if_neg (fun h => hw (he.1 h)), h3]
      simp only [if_neg hw] at k0 k1 k2
      rw [← k0, ← k1, ← k2]
      simp [hw]

theorem mem_ints (lo hi z : ℤ) : z ∈ Viewer.ints lo hi ↔ lo ≤ z ∧ z ≤ hi := by
  unfold Viewer.ints
  simp only [List.mem_map, List.mem_range]
  constructor
  · rintro ⟨i, hi, rfl⟩
    omega
  · rintro ⟨h1, h2⟩
    exact ⟨(z - lo).toNat, by omega, by omega⟩

theorem mem_cellsIn (r : Fin 3 → ℤ × ℤ) (R : Cell) : R ∈ cellsIn r ↔ ∀ c, (r c).1 ≤ along c R ∧ along c R ≤ (r c).2 := by
  unfold cellsIn
  simp only [List.mem_flatMap, List.mem_map, mem_ints]
  constructor
  · rintro ⟨a, ha, b, hb, c, hc, rfl⟩ i
    fin_cases i
    · exact ha
    · exact hb
    · exact hc
  · intro h
    exact ⟨R.1, h 0, R.2.1, h 1, R.2.2, h 2, rfl⟩

theorem sitePos_eq (s : PrimCell ℝ ℂ Λ) (R : Cell) (i : ℕ) :
    sitePos s R i = sitePos s 0 i + Viewer.cellPos s.lat R := by
  unfold sitePos Viewer.cellPos frac2cartRow cellVec
  rw [Matrix.mulVec_add, Matrix.mulVec_add, Matrix.mulVec_transpose _ ![(R.1 : ℝ), _, _]]
  funext x
  simp [Matrix.mulVec, dotProduct, Fin.sum_univ_three]
  ring

theorem min_max_third (x y : Fin 3) (h : x ≠ y) (view : String) (hv : view = String.ofList [letter x, letter y]) :
    (if view = "ab" ∨ view = "ba" then ((0, 1) : Fin 3 × Fin 3) else if view = "bc" ∨ view = "cb" then (1, 2) else (0, 2)) = (min x y, max x y) := by
  subst hv
  fin_cases x <;> fin_cases y <;> first | exact absurd rfl h | decide

theorem corner_eq (lat : Mat3 ℝ) (origin : Vec3 ℝ) {x y : Fin 3} (h : x ≠ y) (a b : ℤ) :
    Viewer.corner ⟨x, y, third x y, lat, origin⟩ a b = gridPoint lat origin x y a b := by
  have key : ∀ c : Fin 3, (Viewer.cellPos lat (Viewer.restore ⟨x, y, third x y, lat, origin⟩ a b) + origin) c =
      (origin + (a : ℝ) • lat (min x y) + (b : ℝ) • lat (max x y)) c := by
    intro c
    unfold Viewer.cellPos Viewer.restore
    have hs : ∀ v : Vec3 ℝ, Matrix.vecMul v lat c = v 0 * lat 0 c + v 1 * lat 1 c + v 2 * lat 2 c := by
      intro v
      simp [Matrix.vecMul, dotProduct, Fin.sum_univ_three]
    rw [Pi.add_apply, hs]
    simp only [Pi.add_apply, Pi.smul_apply, smul_eq_mul]
    have t1 : third 0 1 = 2 := by decide
    have t2 : third 1 0 = 2 := by decide
    have t3 : third 0 2 = 1 := by decide
    have t4 : third 2 0 = 1 := by decide
    have t5 : third 1 2 = 0 := by decide
    have t6 : third 2 1 = 0 := by decide
    have m1 : min (0 : Fin 3) 1 = 0 ∧ max (0 : Fin 3) 1 = 1 := by decide
    have m2 : min (1 : Fin 3) 0 = 0 ∧ max (1 : Fin 3) 0 = 1 := by decide
    have m3 : min (0 : Fin 3) 2 = 0 ∧ max (0 : Fin 3) 2 = 2 := by decide
    have m4 : min (2 : Fin 3) 0 = 0 ∧ max (2 : Fin 3) 0 = 2 := by decide
    have m5 : min (1 : Fin 3) 2 = 1 ∧ max (1 : Fin 3) 2 = 2 := by decide
    have m6 : min (2 : Fin 3) 1 = 1 ∧ max (2 : Fin 3) 1 = 2 := by decide
    fin_cases x <;> fin_cases y <;> first | exact absurd rfl h | skip
    · show _ = origin c + (a : ℝ) * lat (min 0 1) c + (b : ℝ) * lat (max 0 1) c
      simp [t1, m1]; ring
    · show _ = origin c + (a : ℝ) * lat (min 0 2) c + (b : ℝ) * lat (max 0 2) c
      simp [t3, m3]; ring
    · show _ = origin c + (a : ℝ) * lat (min 1 0) c + (b : ℝ) * lat (max 1 0) c
      simp [t2, m2]; ring
    · show _ = origin c + (a : ℝ) * lat (min 1 2) c + (b : ℝ) * lat (max 1 2) c
      simp [t5, m5]; ring
    · show _ = origin c + (a : ℝ) * lat (min 2 0) c + (b : ℝ) * lat (max 2 0) c
      simp [t4, m4]; ring
    · show _ = origin c + (a : ℝ) * lat (min 2 1) c + (b : ℝ) * lat (max 2 1) c
      simp [t6, m6]; ring
  unfold Viewer.corner Viewer.proj gridPoint seen
  rw [key, key]

/-- The lines of the cells. -/
theorem cellCmds_spec (lat : Mat3 ℝ) (origin : Vec3 ℝ) {x y : Fin 3} {view : String} (h : Shows view x y) (lo hi : Fin 3 → ℤ) :
    dots (cellCmds ⟨x, y, third x y, lat, origin⟩ view fun c => (lo c, hi c + 1)) = [] ∧
    segs .hop (cellCmds ⟨x, y, third x y, lat, origin⟩ view fun c => (lo c, hi c + 1)) = [] ∧
    ∀ l, l ∈ segs .cell (cellCmds ⟨x, y, third x y, lat, origin⟩ view fun c => (lo c, hi c + 1)) ↔ IsCellLine lat origin x y lo hi l := by
  unfold cellCmds
  rw [min_max_third x y h.1 view h.2]
  refine ⟨rfl, rfl, ?_⟩
  intro l
  have h01 : gridPoint lat origin x y 0 1 = seen x y (origin + lat (max x y)) := by simp [gridPoint]
  have h10 : gridPoint lat origin x y 1 0 = seen x y (origin + lat (min x y)) := by simp [gridPoint]
  have hsplit : l ∈ segs .cell (Cmd.lines .cell (Viewer.grid ⟨x, y, third x y, lat, origin⟩ (lo (min x y)) (hi (min x y) + 1) (lo (max x y)) (hi (max x y) + 1)) ::
      Viewer.latVec ⟨x, y, third x y, lat, origin⟩) ↔
      l ∈ Viewer.grid ⟨x, y, third x y, lat, origin⟩ (lo (min x y)) (hi (min x y) + 1) (lo (max x y)) (hi (max x y) + 1) ∨
      l = (seen x y origin, seen x y (origin + lat (max x y))) ∨ l = (seen x y origin, seen x y (origin + lat (min x y))) := by
    rw [← h01, ← h10]
    simp only [segs, List.flatMap_cons, List.mem_append, if_true, Viewer.latVec, List.map_cons, List.map_nil, List.flatMap_nil, List.append_nil,
      List.mem_singleton, corner_eq lat origin h.1, Viewer.proj, seen, add_sub_cancel]
  refine hsplit.trans ?_
  unfold IsCellLine Viewer.grid
  rw [List.mem_append, List.mem_map, List.mem_map]
  simp only [corner_eq lat origin h.1, mem_ints]
  have hxy : (l = (seen x y origin, seen x y (origin + lat (max x y))) ∨ l = (seen x y origin, seen x y (origin + lat (min x y)))) ↔
      (l = (seen x y origin, seen x y (origin + lat x)) ∨ l = (seen x y origin, seen x y (origin + lat y))) := by
    rcases le_total x y with hle | hle
    · rw [max_eq_right hle, min_eq_left hle, or_comm]
    · rw [max_eq_left hle, min_eq_right hle]
  rw [hxy, or_assoc]
  refine or_congr ?_ (or_congr ?_ Iff.rfl)
  · exact exists_congr fun a => ⟨fun ⟨⟨h1, h2⟩, h3⟩ => ⟨h1, h2, h3.symm⟩, fun ⟨h1, h2, h3⟩ => ⟨⟨h1, h2⟩, h3.symm⟩⟩
  · exact exists_congr fun a => ⟨fun ⟨⟨h1, h2⟩, h3⟩ => ⟨h1, h2, h3.symm⟩, fun ⟨h1, h2, h3⟩ => ⟨⟨h1, h2⟩, h3.symm⟩⟩

end Verif.PlotSpec

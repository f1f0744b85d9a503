import Verif.Spec.Wannier
import Verif.Proof.Prim
import Mathlib.Tactic.Ring
import Mathlib.Tactic.FieldSimp
import Mathlib.Data.List.GetD

/-! # Proofs about the Wannier90 interface -/

namespace Verif.Wannier

variable {E : Type*} [Field E]

/-! ## Correction of the hopping terms -/

/-- Energy stored for an index. -/
def gt (st : List (Cell × Pair) × List E) (y : Cell × Pair) : E :=
  if y ∈ st.1 then st.2.getD (st.1.idxOf y) 0 else 0

theorem set_gt (ind : List (Cell × Pair)) (eng : List E) (hl : ind.length = eng.length)
    (x : Cell × Pair) (hx : x ∈ ind) (e : E) (y : Cell × Pair) :
    gt (ind, eng.set (ind.idxOf x) e) y = if y = x then e else gt (ind, eng) y := by
  unfold gt
  by_cases hy : y ∈ ind
  · simp only [hy, if_true]
    have hlt := List.idxOf_lt_length_of_mem hy
    rw [List.getD_eq_getElem _ _ (by simpa [← hl] using hlt),
      List.getD_eq_getElem _ _ (by simpa [← hl] using hlt), List.getElem_set]
    have : ind.idxOf x = ind.idxOf y ↔ y = x := by
      constructor
      · intro h; exact ((List.idxOf_inj hx).1 h).symm
      · rintro rfl; rfl
    simp only [this]
  · simp only [hy, if_false]
    rw [if_neg]
    rintro rfl; exact hy hx

theorem assign_gt (st : List (Cell × Pair) × List E) (hl : st.1.length = st.2.length)
    (x : Cell × Pair) (e : E) (y : Cell × Pair) :
    gt (wsAssign st x e) y = if y = x then e else gt st y := by
  obtain ⟨ind, eng⟩ := st
  unfold wsAssign
  by_cases hx : x ∈ ind
  · simp only [hx, if_true]
    exact set_gt ind eng hl x hx e y
  · simp only [hx, if_false]
    unfold gt
    simp only at hl
    by_cases hyx : y = x
    · subst hyx
      have : (ind ++ [y]).idxOf y = ind.length := by
        rw [List.idxOf_append_of_notMem hx]; simp
      simp only [List.mem_append, List.mem_singleton, or_true, if_true, this]
      simp [hl]
    · simp only [List.mem_append, List.mem_singleton, hyx, or_false, if_false]
      by_cases hy : y ∈ ind
      · simp only [hy, if_true]
        have hlt := List.idxOf_lt_length_of_mem hy
        rw [List.idxOf_append_of_mem hy, List.getD_append _ _ _ _ (by omega)]
      · simp only [hy, if_false]

theorem assign_len (st : List (Cell × Pair) × List E) (hl : st.1.length = st.2.length)
    (x : Cell × Pair) (e : E) : (wsAssign st x e).1.length = (wsAssign st x e).2.length := by
  unfold wsAssign
  split <;> simp [hl]

theorem assign_nodup (st : List (Cell × Pair) × List E) (hn : st.1.Nodup)
    (x : Cell × Pair) (e : E) : (wsAssign st x e).1.Nodup := by
  unfold wsAssign
  split
  · exact hn
  · rename_i h
    exact List.Nodup.append hn (List.nodup_singleton _) (by simpa using h)

theorem assign_mem (st : List (Cell × Pair) × List E) (x : Cell × Pair) (e : E) (y : Cell × Pair)
    (hy : y ∈ st.1) : y ∈ (wsAssign st x e).1 := by
  unfold wsAssign
  split
  · exact hy
  · simp [hy]

/-- Properties of a list of assignments of the same energy. -/
theorem assigns {ι : Type*} (img : ι → Cell × Pair) (e : E) (vs : List ι) :
    ∀ st : List (Cell × Pair) × List E, st.1.length = st.2.length → st.1.Nodup →
    let r := vs.foldl (fun s v => wsAssign s (img v) e) st
    r.1.length = r.2.length ∧ r.1.Nodup ∧ (∀ y ∈ st.1, y ∈ r.1) ∧
      (∀ v ∈ vs, gt r (img v) = e) ∧ (∀ y, (∀ v ∈ vs, img v ≠ y) → gt r y = gt st y) := by
  induction vs with
  | nil => intro st hl hn; exact ⟨hl, hn, fun _ h => h, by simp, fun _ _ => rfl⟩
  | cons v vs ih =>
    intro st hl hn
    have := ih (wsAssign st (img v) e) (assign_len st hl _ e) (assign_nodup st hn _ e)
    simp only [List.foldl_cons]
    obtain ⟨h1, h2, h3, h4, h5⟩ := this
    refine ⟨h1, h2, fun y hy => h3 y (assign_mem st _ e y hy), ?_, ?_⟩
    · intro w hw
      by_cases hm : ∃ u ∈ vs, img u = img w
      · obtain ⟨u, hu, hue⟩ := hm
        rw [← hue]; exact h4 u hu
      · push Not at hm
        rw [h5 _ hm, assign_gt st hl]
        rcases List.mem_cons.1 hw with rfl | hw
        · simp
        · exact absurd rfl (hm w hw)
    · intro y hy
      rw [h5 y (fun u hu => hy u (List.mem_cons_of_mem _ hu)), assign_gt st hl, if_neg]
      exact fun h => hy v List.mem_cons_self h.symm

theorem key_step (st : List (Cell × Pair) × List E) (hl : st.1.length = st.2.length)
    (hn : st.1.Nodup) (q : (Cell × Pair) × List Cell) (hq : q.1 ∈ st.1) :
    ∃ r, wsKey st q = .ok r ∧ r.1.length = r.2.length ∧ r.1.Nodup ∧ (∀ y ∈ st.1, y ∈ r.1) ∧
      (∀ v ∈ q.2, gt r (q.1.1 + v, q.1.2) = gt st q.1 / q.2.length) ∧
      (∀ y, (∀ v ∈ q.2, (q.1.1 + v, q.1.2) ≠ y) → gt r y = if y = q.1 then 0 else gt st y) := by
  have hlen : st.1.length = (st.2.set (st.1.idxOf q.1) 0).length := by simp [hl]
  have hg : st.2.getD (st.1.idxOf q.1) 0 = gt st q.1 := by simp [gt, hq]
  obtain ⟨h1, h2, h3, h4, h5⟩ := assigns (fun v => (q.1.1 + v, q.1.2)) (gt st q.1 / q.2.length) q.2
    (st.1, st.2.set (st.1.idxOf q.1) 0) hlen hn
  refine ⟨_, ?_, h1, h2, h3, h4, ?_⟩
  · unfold wsKey
    simp only [hq, if_true, hg]
  · intro y hy
    rw [h5 y hy]
    exact set_gt st.1 st.2 hl q.1 hq 0 y

theorem add_zero_img (x : Cell × Pair) : (x.1 + 0, x.2) = x := by simp

theorem mem_keys {ws : PyDict (Cell × Pair) (List Cell)} {q : (Cell × Pair) × List Cell}
    (h : q ∈ ws) : q.1 ∈ PyDict.keys ws := List.mem_map_of_mem h

/-- The images of one key are neither images of another key nor other keys. -/
theorem img_ne {ws : PyDict (Cell × Pair) (List Cell)} {g : Cell × Pair → E}
    (hno : NoOverlap ws g) {q q' : (Cell × Pair) × List Cell} (hq : q ∈ ws) (hq' : q' ∈ ws)
    (hne : q.1 ≠ q'.1) :
    (∀ v ∈ q.2, (q.1.1 + v, q.1.2) ≠ q'.1) ∧
    ∀ v ∈ q.2, ∀ v' ∈ q'.2, (q.1.1 + v, q.1.2) ≠ (q'.1.1 + v', q'.1.2) := by
  have h1 : ∀ {q q' : (Cell × Pair) × List Cell}, q ∈ ws → q' ∈ ws → q.1 ≠ q'.1 →
      ∀ v ∈ q.2, (q.1.1 + v, q.1.2) ≠ q'.1 := by
    intro q q' hq hq' hne v hv h
    by_cases hv0 : v = 0
    · subst hv0
      rw [add_zero_img] at h
      exact hne h
    · exact ((hno q hq).2.2 v hv hv0).1 (h ▸ mem_keys hq')
  refine ⟨h1 hq hq' hne, ?_⟩
  intro v hv v' hv' h
  by_cases hv0 : v' = 0
  · subst hv0
    rw [add_zero_img] at h
    exact h1 hq hq' hne v hv h
  · exact hne (congrArg Prod.fst (((hno q' hq').2.2 v' hv' hv0).2.2 q hq v hv h))

theorem noOverlap_tail {q : (Cell × Pair) × List Cell} {ws : PyDict (Cell × Pair) (List Cell)}
    {g g' : Cell × Pair → E} (hno : NoOverlap (q :: ws) g)
    (hnd : (PyDict.keys (q :: ws)).Nodup)
    (hg : ∀ y, (∀ v ∈ q.2, (q.1.1 + v, q.1.2) ≠ y) → g' y = if y = q.1 then 0 else g y) :
    NoOverlap ws g' := by
  intro p hp
  have hp' : p ∈ q :: ws := List.mem_cons_of_mem _ hp
  obtain ⟨h1, h2, h3⟩ := hno p hp'
  refine ⟨h1, h2, ?_⟩
  intro v hv hv0
  obtain ⟨a, b, c⟩ := h3 v hv hv0
  have hne : q.1 ≠ p.1 := by
    intro h
    have := (List.nodup_cons.1 hnd).1
    exact this (h ▸ mem_keys hp)
  refine ⟨fun h => a (List.mem_cons_of_mem _ h), ?_, fun q' hq' => c q' (List.mem_cons_of_mem _ hq')⟩
  rw [hg _ (fun w hw => (img_ne hno List.mem_cons_self hp' hne).2 w hw v hv), b]
  simp

/-- Effect of the whole correction on the stored energies. -/
theorem apply_gt (ws : PyDict (Cell × Pair) (List Cell)) :
    ∀ st : List (Cell × Pair) × List E, st.1.length = st.2.length → st.1.Nodup →
    (PyDict.keys ws).Nodup → (∀ q ∈ ws, q.1 ∈ st.1) → NoOverlap ws (gt st) →
    ∃ r, applyWsvec ws st = .ok r ∧ r.1.length = r.2.length ∧ r.1.Nodup ∧
      (∀ q ∈ ws, ∀ v ∈ q.2, gt r (q.1.1 + v, q.1.2) = gt st q.1 / q.2.length) ∧
      (∀ y, (∀ q ∈ ws, ∀ v ∈ q.2, (q.1.1 + v, q.1.2) ≠ y) →
        gt r y = if y ∈ PyDict.keys ws then 0 else gt st y) := by
  induction ws with
  | nil =>
    intro st hl hn _ _ _
    exact ⟨st, rfl, hl, hn, by simp, fun y _ => by simp [PyDict.keys]⟩
  | cons q ws ih =>
    intro st hl hn hnd hmem hno
    obtain ⟨s1, h0, hl1, hn1, hm1, hv1, hy1⟩ := key_step st hl hn q (hmem q List.mem_cons_self)
    have hnd' : (PyDict.keys ws).Nodup := (List.nodup_cons.1 hnd).2
    have hq0 : q.1 ∉ PyDict.keys ws := (List.nodup_cons.1 hnd).1
    have hno' : NoOverlap ws (gt s1) := noOverlap_tail hno hnd hy1
    have hne : ∀ p ∈ ws, q.1 ≠ p.1 := fun p hp h => hq0 (h ▸ mem_keys hp)
    obtain ⟨r, h2, hl2, hn2, hv2, hy2⟩ := ih s1 hl1 hn1 hnd'
      (fun p hp => hm1 _ (hmem p (List.mem_cons_of_mem _ hp))) hno'
    refine ⟨r, ?_, hl2, hn2, ?_, ?_⟩
    · unfold applyWsvec at h2 ⊢
      rw [List.foldlM_cons, h0]
      exact h2
    · intro p hp v hv
      rcases List.mem_cons.1 hp with rfl | hp
      · have himg : ∀ p' ∈ ws, ∀ v' ∈ p'.2, (p'.1.1 + v', p'.1.2) ≠ (p.1.1 + v, p.1.2) := by
          intro p' hp' v' hv' h
          exact (img_ne hno List.mem_cons_self (List.mem_cons_of_mem _ hp') (hne p' hp')).2
            v hv v' hv' h.symm
        rw [hy2 _ himg, if_neg, hv1 v hv]
        by_cases hv0 : v = 0
        · subst hv0
          rwa [add_zero_img]
        · exact fun h => ((hno p List.mem_cons_self).2.2 v hv hv0).1 (List.mem_cons_of_mem _ h)
      · rw [hv2 p hp v hv, hy1 p.1
          (img_ne hno List.mem_cons_self (List.mem_cons_of_mem _ hp) (hne p hp)).1,
          if_neg (hne p hp).symm]
    · intro y hy
      rw [hy2 y (fun p hp => hy p (List.mem_cons_of_mem _ hp)),
        hy1 y (fun v hv => hy q List.mem_cons_self v hv)]
      have : y ∈ PyDict.keys (q :: ws) ↔ y = q.1 ∨ y ∈ PyDict.keys ws := by
        simp [PyDict.keys]
      simp only [this]
      by_cases h1 : y ∈ PyDict.keys ws <;> by_cases h2 : y = q.1 <;> simp [h1, h2]

theorem assigns_mem {ι : Type*} (img : ι → Cell × Pair) (e : E) (vs : List ι) :
    ∀ (st : List (Cell × Pair) × List E) (y : Cell × Pair),
    y ∈ (vs.foldl (fun s v => wsAssign s (img v) e) st).1 → y ∈ st.1 ∨ ∃ v ∈ vs, img v = y := by
  induction vs with
  | nil => intro st y hy; exact Or.inl hy
  | cons v vs ih =>
    intro st y hy
    rcases ih _ y hy with h | ⟨w, hw, h⟩
    · unfold wsAssign at h
      beta_reduce at h
      split at h
      · exact Or.inl h
      · rcases List.mem_append.1 h with h | h
        · exact Or.inl h
        · exact Or.inr ⟨v, List.mem_cons_self, (List.mem_singleton.1 h).symm⟩
    · exact Or.inr ⟨w, List.mem_cons_of_mem _ hw, h⟩

/-- Every index of the corrected table is an old one or an image. -/
theorem apply_mem (ws : PyDict (Cell × Pair) (List Cell)) :
    ∀ st r : List (Cell × Pair) × List E, applyWsvec ws st = .ok r →
    ∀ x ∈ r.1, x ∈ st.1 ∨ ∃ q ∈ ws, ∃ v ∈ q.2, (q.1.1 + v, q.1.2) = x := by
  induction ws with
  | nil =>
    intro st r h x hx
    cases h
    exact Or.inl hx
  | cons q ws ih =>
    intro st r h x hx
    unfold applyWsvec at h
    rw [List.foldlM_cons] at h
    by_cases hq : q.1 ∈ st.1
    · unfold wsKey at h
      simp only [hq, if_true, bind, Except.bind] at h
      rcases ih _ r h x hx with h' | ⟨p, hp, v, hv, h'⟩
      · rcases assigns_mem (fun v => (q.1.1 + v, q.1.2)) _ q.2 _ x h' with h'' | ⟨v, hv, h''⟩
        · exact Or.inl h''
        · exact Or.inr ⟨q, List.mem_cons_self, v, hv, h''⟩
      · exact Or.inr ⟨p, List.mem_cons_of_mem _ hp, v, hv, h'⟩
    · unfold wsKey at h
      simp only [hq, if_false, bind, Except.bind] at h
      cases h

/-! ### Amplitudes of a table -/

/-- Pick one term of a table with distinct indices. -/
theorem pick_sum (c : E) (x : Cell × Pair) : ∀ (ind : List (Cell × Pair)) (eng : List E),
    ind.length = eng.length → ind.Nodup →
    ((ind.zip eng).map fun t => if t.1 = x then t.2 * c else 0).sum = gt (ind, eng) x * c := by
  intro ind
  induction ind with
  | nil => intro eng _ _; simp [gt]
  | cons i ind ih =>
    intro eng hl hn
    obtain ⟨hi, hn'⟩ := List.nodup_cons.1 hn
    cases eng with
    | nil => simp at hl
    | cons e eng =>
      simp only [List.length_cons, Nat.add_right_cancel_iff] at hl
      simp only [List.zip_cons_cons, List.map_cons, List.sum_cons]
      rw [ih eng hl hn']
      by_cases h : i = x
      · subst h
        simp [gt, hi]
      · have hb : (i == x) = false := by simpa using h
        have hne : ¬ x = i := fun hh => h hh.symm
        simp only [h, if_false, zero_add, gt, List.mem_cons, hne, false_or]
        by_cases hx : x ∈ ind
        · simp [hx, List.idxOf_cons, hb]
        · simp [hx]

theorem amp_eq (ind : List (Cell × Pair)) (eng : List E) (hl : ind.length = eng.length)
    (hn : ind.Nodup) (x : Cell × Pair) : amp (ind.zip eng) x = gt (ind, eng) x := by
  have := pick_sum (1 : E) x ind eng hl hn
  rw [mul_one] at this
  rw [← this]
  unfold amp
  induction ind.zip eng with
  | nil => rfl
  | cons t l ih =>
    simp only [List.map_cons, List.sum_cons, mul_one] at ih ⊢
    rw [← ih, List.filter_cons]
    by_cases h : t.1 = x <;> simp [h]

theorem get?_some {ws : PyDict (Cell × Pair) (List Cell)} {x : Cell × Pair} {l : List Cell}
    (h : PyDict.get? ws x = some l) : (x, l) ∈ ws := PyDict.mem_of_get? h

theorem gt_zip_mem {ind : List (Cell × Pair)} {eng : List E} {t : (Cell × Pair) × E}
    (hl : ind.length = eng.length) (hn : ind.Nodup) (ht : t ∈ ind.zip eng) :
    gt (ind, eng) t.1 = t.2 := by
  obtain ⟨i, hi, rfl⟩ := List.getElem_of_mem ht
  simp only [List.length_zip] at hi
  have h1 : i < ind.length := by omega
  have h2 : i < eng.length := by omega
  simp only [List.getElem_zip, gt, List.getElem_mem, if_true]
  rw [hn.idxOf_getElem i h1, List.getD_eq_getElem _ _ h2]

theorem filter_img_zero {x y : Cell × Pair} {vs : List Cell}
    (h : ∀ v ∈ vs, (x.1 + v, x.2) ≠ y) :
    (vs.filter fun v => (x.1 + v, x.2) = y).length = 0 := by
  rw [List.length_eq_zero_iff, List.filter_eq_nil_iff]
  intro v hv
  simpa using h v hv

theorem filter_img_one {x : Cell × Pair} {vs : List Cell} {v : Cell} (hn : vs.Nodup) (hv : v ∈ vs) :
    (vs.filter fun w => (x.1 + w, x.2) = (x.1 + v, x.2)).length = 1 := by
  have : (vs.filter fun w => decide ((x.1 + w, x.2) = (x.1 + v, x.2))) = vs.filter (· == v) := by
    apply List.filter_congr
    intro w _
    simp [Prod.ext_iff]
    rfl
  rw [this, ← List.countP_eq_length_filter]
  exact (List.count_eq_one_of_mem hn hv)

/-- The correction of the code is the specified one when no two terms meet. -/
theorem corrected_eq [CharZero E] (ws : PyDict (Cell × Pair) (List Cell))
    (ind : List (Cell × Pair)) (eng : List E) (hl : ind.length = eng.length) (hn : ind.Nodup)
    (hnd : (PyDict.keys ws).Nodup) (hno : NoOverlap ws (gt (ind, eng))) (y : Cell × Pair) :
    (∀ q ∈ ws, ∀ v ∈ q.2, (q.1.1 + v, q.1.2) = y →
      corrected ws (ind.zip eng) y = gt (ind, eng) q.1 / q.2.length) ∧
    ((∀ q ∈ ws, ∀ v ∈ q.2, (q.1.1 + v, q.1.2) ≠ y) →
      corrected ws (ind.zip eng) y = if y ∈ PyDict.keys ws then 0 else gt (ind, eng) y) := by
  constructor
  · intro q hq v hv hy
    rw [div_eq_mul_inv, ← pick_sum _ q.1 ind eng hl hn]
    unfold corrected
    apply congrArg List.sum
    apply List.map_congr_left
    intro t ht
    have hget : ∀ p ∈ ws, shifts ws p.1 = p.2 := by
      intro p hp
      unfold shifts
      rw [(PyDict.mem_iff_get? hnd p.1 p.2).1 hp]
      rfl
    by_cases h : t.1 = q.1
    · rw [if_pos h, h, hget q hq, ← hy, filter_img_one (hno q hq).2.1 hv]
      simp [div_eq_mul_inv]
    · rw [if_neg h]
      cases hg : PyDict.get? ws t.1 with
      | some l =>
        have hm := get?_some hg
        have hs : shifts ws t.1 = l := by simp [shifts, hg]
        rw [hs, filter_img_zero]
        · simp
        · intro w hw
          rw [← hy]
          exact (img_ne hno hm hq h).2 w hw v hv
      | none =>
        have hs : shifts ws t.1 = [0] := by simp [shifts, hg]
        rw [hs]
        by_cases hty : t.1 = y
        · have hv0 : v ≠ 0 := by
            rintro rfl
            rw [add_zero_img] at hy
            exact h (hty.trans hy.symm)
          have h0 := ((hno q hq).2.2 v hv hv0).2.1
          rw [hy, ← hty, gt_zip_mem hl hn ht] at h0
          simp [h0]
        · rw [filter_img_zero]
          · simp
          · intro w hw
            rw [List.mem_singleton.1 hw, add_zero_img]
            exact hty
  · intro hy
    have hmap : ((ind.zip eng).map fun t =>
        (((shifts ws t.1).filter fun v => (t.1.1 + v, t.1.2) = y).length : E) *
          (t.2 / (shifts ws t.1).length)).sum =
        ((ind.zip eng).map fun t => if t.1 = y then
          t.2 * (if y ∈ PyDict.keys ws then 0 else 1) else 0).sum := by
      apply congrArg List.sum
      apply List.map_congr_left
      intro t ht
      cases hg : PyDict.get? ws t.1 with
      | some l =>
        have hm := get?_some hg
        have hs : shifts ws t.1 = l := by simp [shifts, hg]
        rw [hs, filter_img_zero (hy _ hm)]
        by_cases hty : t.1 = y
        · have : y ∈ PyDict.keys ws := hty ▸ mem_keys hm
          simp [hty, this]
        · simp [hty]
      | none =>
        have hs : shifts ws t.1 = [0] := by simp [shifts, hg]
        have hk : t.1 ∉ PyDict.keys ws := (PyDict.get?_eq_none_iff _ _).1 hg
        rw [hs]
        by_cases hty : t.1 = y
        · have : y ∉ PyDict.keys ws := hty ▸ hk
          have hf : ([0] : List Cell).filter (fun v => (t.1.1 + v, t.1.2) = y) = [0] := by
            rw [List.filter_eq_self]
            intro a ha
            rw [List.mem_singleton.1 ha, add_zero_img]
            simpa using hty
          rw [hf]
          simp [hty, this]
        · rw [filter_img_zero]
          · simp [hty]
          · intro w hw
            rw [List.mem_singleton.1 hw, add_zero_img]
            exact hty
    unfold corrected
    rw [hmap, pick_sum _ y ind eng hl hn]
    split <;> simp

/-! ### Total amplitude -/

theorem total_set (p : Pair) (x : Cell × Pair) (e : E) : ∀ (ind : List (Cell × Pair)) (eng : List E),
    ind.length = eng.length → x ∈ ind →
    total (ind.zip (eng.set (ind.idxOf x) e)) p =
      total (ind.zip eng) p + if x.2 = p then e - gt (ind, eng) x else 0 := by
  intro ind
  induction ind with
  | nil => intro eng _ h; simp at h
  | cons i ind ih =>
    intro eng hl hx
    cases eng with
    | nil => simp at hl
    | cons a eng =>
      simp only [List.length_cons, Nat.add_right_cancel_iff] at hl
      by_cases h : i = x
      · subst h
        have : (i :: ind).idxOf i = 0 := by simp
        rw [this]
        simp only [List.set_cons_zero, List.zip_cons_cons, total, List.filter_cons]
        by_cases hp : i.2 = p
        · simp [hp, gt]; ring
        · simp [hp]
      · have hb : (i == x) = false := by simpa using h
        have hne : ¬ x = i := fun hh => h hh.symm
        have hx' : x ∈ ind := by simpa [hne] using hx
        have hi : (i :: ind).idxOf x = ind.idxOf x + 1 := by simp [List.idxOf_cons, hb]
        have hg : gt (i :: ind, a :: eng) x = gt (ind, eng) x := by
          simp [gt, hx', hi]
        have := ih eng hl hx'
        rw [hi, hg]
        simp only [List.set_cons_succ, List.zip_cons_cons, total, List.filter_cons] at this ⊢
        by_cases hp : i.2 = p
        · simp only [hp, decide_true, if_true, List.map_cons, List.sum_cons, this]; ring
        · simp only [hp, decide_false, Bool.false_eq_true, if_false, this]

theorem total_assign (p : Pair) (st : List (Cell × Pair) × List E) (hl : st.1.length = st.2.length)
    (x : Cell × Pair) (e : E) :
    total ((wsAssign st x e).1.zip (wsAssign st x e).2) p =
      total (st.1.zip st.2) p + if x.2 = p then e - gt st x else 0 := by
  unfold wsAssign
  by_cases hx : x ∈ st.1
  · simp only [hx, if_true]
    exact total_set p x e st.1 st.2 hl hx
  · simp only [hx, if_false]
    rw [List.zip_append hl]
    simp only [total, List.filter_append, List.map_append, List.sum_append, gt, hx, if_false]
    by_cases hp : x.2 = p <;> simp [hp]

theorem total_assigns {ι : Type*} (p k : Pair) (img : ι → Cell × Pair) (himg : ∀ v, (img v).2 = k)
    (hinj : Function.Injective img) (e : E) (vs : List ι) (hn : vs.Nodup) :
    ∀ st : List (Cell × Pair) × List E, st.1.length = st.2.length → (∀ v ∈ vs, gt st (img v) = 0) →
    let r := vs.foldl (fun s v => wsAssign s (img v) e) st
    total (r.1.zip r.2) p = total (st.1.zip st.2) p + if k = p then vs.length * e else 0 := by
  induction vs with
  | nil => intro st _ _; simp
  | cons v vs ih =>
    intro st hl h0
    obtain ⟨hv, hn'⟩ := List.nodup_cons.1 hn
    have hz : ∀ w ∈ vs, gt (wsAssign st (img v) e) (img w) = 0 := by
      intro w hw
      rw [assign_gt st hl, if_neg, h0 w (List.mem_cons_of_mem _ hw)]
      intro h
      exact hv (hinj h ▸ hw)
    have := ih hn' (wsAssign st (img v) e) (assign_len st hl _ e) hz
    simp only [List.foldl_cons] at this ⊢
    rw [this, total_assign p st hl, himg, h0 v List.mem_cons_self]
    by_cases hp : k = p <;> simp [hp]
    ring

theorem apply_total [CharZero E] (p : Pair) (ws : PyDict (Cell × Pair) (List Cell)) :
    ∀ st : List (Cell × Pair) × List E, st.1.length = st.2.length → st.1.Nodup →
    (PyDict.keys ws).Nodup → (∀ q ∈ ws, q.1 ∈ st.1) → NoOverlap ws (gt st) →
    ∃ r, applyWsvec ws st = .ok r ∧ total (r.1.zip r.2) p = total (st.1.zip st.2) p := by
  induction ws with
  | nil => intro st _ _ _ _ _; exact ⟨st, rfl, rfl⟩
  | cons q ws ih =>
    intro st hl hn hnd hmem hno
    have hq : q.1 ∈ st.1 := hmem q List.mem_cons_self
    obtain ⟨s1, h0, hl1, hn1, hm1, hv1, hy1⟩ := key_step st hl hn q hq
    have hnd' : (PyDict.keys ws).Nodup := (List.nodup_cons.1 hnd).2
    have hno' : NoOverlap ws (gt s1) := noOverlap_tail hno hnd hy1
    obtain ⟨r, h2, h3⟩ := ih s1 hl1 hn1 hnd'
      (fun p hp => hm1 _ (hmem p (List.mem_cons_of_mem _ hp))) hno'
    refine ⟨r, ?_, ?_⟩
    · unfold applyWsvec at h2 ⊢
      rw [List.foldlM_cons, h0]
      exact h2
    · rw [h3]
      obtain ⟨hne, hvn, hz⟩ := hno q List.mem_cons_self
      have hg : st.2.getD (st.1.idxOf q.1) 0 = gt st q.1 := by simp [gt, hq]
      unfold wsKey at h0
      simp only [hq, if_true, hg, Except.ok.injEq] at h0
      have hset := total_set p q.1 (0 : E) st.1 st.2 hl hq
      have h00 : ∀ v ∈ q.2, gt (st.1, st.2.set (st.1.idxOf q.1) 0) (q.1.1 + v, q.1.2) = 0 := by
        intro v hv
        rw [set_gt st.1 st.2 hl q.1 hq]
        by_cases hv0 : v = 0
        · subst hv0
          simp
        · rw [(hz v hv hv0).2.1]; simp
      have := total_assigns p q.1.2 (fun v => (q.1.1 + v, q.1.2)) (fun _ => rfl)
        (fun a b h => by simpa [Prod.ext_iff] using h) (gt st q.1 / q.2.length) q.2 hvn
        (st.1, st.2.set (st.1.idxOf q.1) 0) (by simp [hl]) h00
      simp only [h0] at this
      rw [this, hset]
      have hlen : (q.2.length : E) ≠ 0 := by
        rw [Nat.cast_ne_zero]
        exact fun h => hne (List.length_eq_zero_iff.1 h)
      by_cases hp : q.1.2 = p
      · simp only [hp, if_true]
        field_simp
        ring
      · simp [hp]

end Verif.Wannier

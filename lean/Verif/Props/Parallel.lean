import Verif.Proof.ParallelDiag
import Mathlib.Data.Int.CardIntervalMod
import Mathlib.Data.List.Perm.Basic
import Mathlib.Tactic.Linarith

/-! # Properties of runs on several processes: C43, C44, C46 -/

namespace Verif.Props

open Verif

/-! ## C43: splitting -/

theorem splitRange_get (n g r : ℕ) (hr : r < g) :
    (splitRange n g)[r]? = some (r * (n / g) + min r (n % g), (r + 1) * (n / g) + min (r + 1) (n % g)) := by
  rw [splitRange_eq n g (by omega)]
  simp [hr]

theorem splitRange_len (n g r : ℕ) :
    (r + 1) * (n / g) + min (r + 1) (n % g) - (r * (n / g) + min r (n % g)) =
      n / g + if r < n % g then 1 else 0 := by
  have : (r + 1) * (n / g) = r * (n / g) + n / g := by ring
  generalize n / g = q at *
  generalize n % g = m at *
  split_ifs with h
  · rw [min_eq_left h.le, min_eq_left (show r + 1 ≤ _ from h)]; omega
  · rw [min_eq_right (not_lt.1 h), min_eq_right (by omega)]; omega

/-- **C43 (`split_range`).** For every number of items and every positive number of groups: there are as many ranges
as groups; put one after the other they are `0, 1, …, n - 1`; every item is in exactly one group; and the sizes differ by
at most one. -/
theorem C43_split_range (n g : ℕ) (hg : 0 < g) :
    (splitRange n g).length = g ∧
    (splitRange n g).flatMap (fun p => List.range' p.1 (p.2 - p.1)) = List.range n ∧
    (∀ i < n, ∃! r : ℕ, ∃ p : ℕ × ℕ, (splitRange n g)[r]? = some p ∧ p.1 ≤ i ∧ i < p.2) ∧
    (∀ p ∈ splitRange n g, ∀ p' ∈ splitRange n g, p.1 ≤ p.2 ∧ p.2 - p.1 ≤ p'.2 - p'.1 + 1) := by
  have hlen : (splitRange n g).length = g := by simp [splitRange]
  have hflat := splitRange_flat n g hg
  have hmono : ∀ a b : ℕ, a ≤ b → a * (n / g) + min a (n % g) ≤ b * (n / g) + min b (n % g) :=
    fun a b h => Nat.add_le_add (Nat.mul_le_mul_right _ h) (min_le_min_right _ h)
  refine ⟨hlen, hflat, ?_, ?_⟩
  · intro i hi
    have hm : i ∈ (splitRange n g).flatMap rangeElems := by rw [hflat]; exact List.mem_range.2 hi
    rw [List.mem_flatMap] at hm
    obtain ⟨p, hp, hi2⟩ := hm
    obtain ⟨r, hr⟩ := List.getElem?_of_mem hp
    have hi3 : p.1 ≤ i ∧ i < p.2 := by
      unfold rangeElems at hi2
      rw [List.mem_range'_1] at hi2
      omega
    refine ⟨r, ⟨p, hr, hi3⟩, ?_⟩
    rintro r' ⟨p', hr', h1, h2⟩
    have hrl : r < g := by rw [← hlen]; exact (List.getElem?_eq_some_iff.1 hr).1
    have hrl' : r' < g := by rw [← hlen]; exact (List.getElem?_eq_some_iff.1 hr').1
    rw [splitRange_get n g r hrl] at hr
    rw [splitRange_get n g r' hrl'] at hr'
    cases hr; cases hr'
    simp only at h1 h2 hi3
    rcases lt_trichotomy r r' with h | h | h
    · have := hmono (r + 1) r' h; omega
    · exact h.symm
    · have := hmono (r' + 1) r h; omega
  · intro p hp p' hp'
    obtain ⟨r, hr⟩ := List.getElem?_of_mem hp
    obtain ⟨r', hr'⟩ := List.getElem?_of_mem hp'
    have hrl : r < g := by rw [← hlen]; exact (List.getElem?_eq_some_iff.1 hr).1
    have hrl' : r' < g := by rw [← hlen]; exact (List.getElem?_eq_some_iff.1 hr').1
    rw [splitRange_get n g r hrl] at hr
    rw [splitRange_get n g r' hrl'] at hr'
    cases hr; cases hr'
    refine ⟨hmono r (r + 1) (Nat.le_succ r), ?_⟩
    rw [splitRange_len, splitRange_len]
    split_ifs <;> omega

example : splitRange 7 3 = [(0, 3), (3, 5), (5, 7)] := by decide
/-- More groups than items: some ranges are empty. -/
example : splitRange 2 4 = [(0, 1), (1, 2), (2, 2), (2, 2)] := by decide

theorem pick_ok {α : Type*} (l : List α) (idx : List ℕ) (h : ∀ i ∈ idx, i < l.length) :
    pick l idx = .ok (idx.filterMap fun i => l[i]?) := by
  unfold pick
  induction idx with
  | nil => rfl
  | cons i idx ih =>
    rw [List.mapM_cons, ih (fun j hj => h j (List.mem_cons_of_mem _ hj))]
    have hi := h i (List.mem_cons_self ..)
    rw [List.filterMap_cons, List.getElem?_eq_getElem hi]
    rfl

theorem mapM_ok {α β ε : Type*} (f : α → Except ε β) (g : α → β) (L : List α) (h : ∀ a ∈ L, f a = .ok (g a)) :
    L.mapM f = .ok (L.map g) := by
  induction L with
  | nil => rfl
  | cons a L ih =>
    rw [List.mapM_cons, h a (List.mem_cons_self ..), ih (fun b hb => h b (List.mem_cons_of_mem _ hb))]
    rfl

theorem filterMap_range {α : Type*} (l : List α) : ((List.range l.length).filterMap fun i => l[i]?) = l := by
  induction l using List.reverseRecOn with
  | nil => rfl
  | append_singleton l a ih =>
    rw [List.length_append, List.length_singleton, List.range_succ, List.filterMap_append]
    congr 1
    · conv_rhs => rw [← ih]
      apply List.filterMap_congr
      intro i hi
      rw [List.getElem?_append_left (List.mem_range.1 hi)]
    · simp

theorem filter_mod_length (n g k : ℕ) (hk : k < g) :
    ((List.range n).filter fun i => i % g = k).length = n / g + if k < n % g then 1 else 0 := by
  have h1 : ((List.range n).filter fun i => i % g = k).length = n.count (fun i => i ≡ k [MOD g]) := by
    rw [Nat.count_eq_card_filter_range, ← List.countP_eq_length_filter]
    have : (Finset.range n).filter (fun i => i ≡ k [MOD g]) =
        ((List.range n).filter fun i => i % g = k).toFinset := by
      ext i
      simp [Nat.ModEq, Nat.mod_eq_of_lt hk]
    rw [this, List.toFinset_card_of_nodup (List.nodup_range.filter _), List.countP_eq_length_filter]
  rw [h1, Nat.count_modEq_card n (by omega), Nat.mod_eq_of_lt hk]

/-- **C43 (`split_list`, partial).** For a number of groups between one and the number of items, both algorithms return as
many groups as asked for; every item is in exactly one group (the groups together are a permutation of the list, position by
position); every group keeps the order; the sizes differ by at most one; "range" gives consecutive pieces and "remainder"
gives group `k` the items whose position is `k` modulo the number of groups.  Missing: more groups than items, which is
refused, see `C43_split_list_refused`. -/
theorem C43_split_list_partial {α : Type*} (l : List α) (g : ℕ) (h1 : 1 ≤ g) (h2 : g ≤ l.length) :
    (∃ gs, splitList l g .range = .ok gs ∧ gs.length = g ∧ gs.flatten = l ∧
      ∀ a ∈ gs, a.Sublist l ∧ ∀ b ∈ gs, a.length ≤ b.length + 1) ∧
    (∃ gs, splitList l g .remainder = .ok gs ∧ gs.length = g ∧ gs.flatten.Perm l ∧
      (∀ a ∈ gs, a.Sublist l ∧ ∀ b ∈ gs, a.length ≤ b.length + 1) ∧
      ∀ k < g, ∀ j, (gs[k]?.bind fun a => a[j]?) = l[k + j * g]?) := by
  have hc : ¬ ¬ (1 ≤ g ∧ g < l.length + 1) := by omega
  set n := l.length with hn
  have hsub : ∀ idx : List ℕ, idx.Sublist (List.range n) →
      (idx.filterMap fun i => l[i]?).Sublist l := by
    intro idx h
    have := h.filterMap (fun i => l[i]?)
    rwa [filterMap_range] at this
  have hlen : ∀ idx : List ℕ, (∀ i ∈ idx, i < n) → (idx.filterMap fun i => l[i]?).length = idx.length := by
    intro idx h
    rw [List.length_filterMap_eq_countP, List.countP_eq_length]
    intro i hi
    rw [List.getElem?_eq_getElem (h i hi)]; rfl
  refine ⟨?_, ?_⟩
  · unfold splitList
    rw [if_neg hc]
    simp only
    -- the index lists
    let idx : ℕ → List ℕ := fun i => rangeElems (i * (n / g) + min i (n % g), (i + 1) * (n / g) + min (i + 1) (n % g))
    have hidx : ∀ i < g, (List.range' ((numItems n g).take i).sum
        (((numItems n g).take i).sum + (numItems n g).getD i 0 - ((numItems n g).take i).sum)) = idx i := by
      intro i hi
      have := splitRange_eq n g (by omega)
      have e := splitRange_get n g i hi
      unfold splitRange at e
      simp only [List.getElem?_map, List.getElem?_range hi, Option.map_some, Option.some.injEq, Prod.mk.injEq] at e
      rw [e.2, e.1]
      rfl
    have hflat : ((List.range g).map idx).flatten = List.range n := by
      have := splitRange_flat n g (by omega)
      rw [splitRange_eq n g (by omega), List.flatMap_map] at this
      exact this
    have hin : ∀ i < g, ∀ j ∈ idx i, j < n := by
      intro i hi j hj
      have : j ∈ ((List.range g).map idx).flatten :=
        List.mem_flatten.2 ⟨_, List.mem_map.2 ⟨i, List.mem_range.2 hi, rfl⟩, hj⟩
      rw [hflat] at this
      exact List.mem_range.1 this
    have hsubi : ∀ i < g, (idx i).Sublist (List.range n) := by
      intro i hi
      rw [← hflat]
      exact List.sublist_flatten_of_mem (List.mem_map.2 ⟨i, List.mem_range.2 hi, rfl⟩)
    refine ⟨(List.range g).map fun i => (idx i).filterMap fun j => l[j]?, ?_, by simp, ?_, ?_⟩
    · apply mapM_ok
      intro i hi
      have hi := List.mem_range.1 hi
      rw [hidx i hi, pick_ok l _ (hin i hi)]
    · have : ((List.range g).map fun i => (idx i).filterMap fun j => l[j]?) =
          ((List.range g).map idx).map (fun a => a.filterMap fun j => l[j]?) := by simp
      rw [this, ← List.filterMap_flatten, hflat, filterMap_range]
    · intro a ha
      obtain ⟨i, hi, rfl⟩ := List.mem_map.1 ha
      have hi := List.mem_range.1 hi
      refine ⟨hsub _ (hsubi i hi), ?_⟩
      intro b hb
      obtain ⟨i', hi', rfl⟩ := List.mem_map.1 hb
      have hi' := List.mem_range.1 hi'
      rw [hlen _ (hin i hi), hlen _ (hin i' hi')]
      simp only [idx, rangeElems, List.length_range', splitRange_len]
      split_ifs <;> omega
  · unfold splitList
    rw [if_neg hc]
    simp only
    let idx : ℕ → List ℕ := fun k => (List.range n).filter fun i => i % g = k
    have hin : ∀ i, ∀ j ∈ idx i, j < n := fun i j hj => List.mem_range.1 (List.mem_filter.1 hj).1
    refine ⟨(List.range g).map fun i => (idx i).filterMap fun j => l[j]?, ?_, by simp, ?_, ?_, ?_⟩
    · apply mapM_ok
      intro i _
      exact pick_ok l _ (hin i)
    · have : ((List.range g).map fun i => (idx i).filterMap fun j => l[j]?) =
          ((List.range g).map idx).map (fun a => a.filterMap fun j => l[j]?) := by simp
      rw [this, ← List.filterMap_flatten]
      have hp : ((List.range g).map idx).flatten.Perm (List.range n) := by
        rw [List.perm_ext_iff_of_nodup _ List.nodup_range]
        · intro j
          simp only [List.mem_flatten, List.mem_map, List.mem_range, idx]
          constructor
          · rintro ⟨_, ⟨k, _, rfl⟩, hj⟩; exact List.mem_range.1 (List.mem_filter.1 hj).1
          · intro hj
            exact ⟨_, ⟨j % g, Nat.mod_lt _ (by omega), rfl⟩, List.mem_filter.2 ⟨List.mem_range.2 hj, by simp⟩⟩
        · rw [List.nodup_flatten]
          constructor
          · intro a ha
            obtain ⟨k, _, rfl⟩ := List.mem_map.1 ha
            exact List.nodup_range.filter _
          · rw [List.pairwise_map]
            apply List.Pairwise.imp _ List.nodup_range
            intro a b hab j hja hjb
            have e1 := (List.mem_filter.1 hja).2
            have e2 := (List.mem_filter.1 hjb).2
            simp only [decide_eq_true_eq] at e1 e2
            exact hab (e1.symm.trans e2)
      have := hp.filterMap (fun j => l[j]?)
      rwa [filterMap_range] at this
    · intro a ha
      obtain ⟨i, hi, rfl⟩ := List.mem_map.1 ha
      have hi := List.mem_range.1 hi
      refine ⟨hsub _ List.filter_sublist, ?_⟩
      intro b hb
      obtain ⟨i', hi', rfl⟩ := List.mem_map.1 hb
      have hi' := List.mem_range.1 hi'
      rw [hlen _ (hin i), hlen _ (hin i')]
      simp only [idx]
      rw [filter_mod_length n g i hi, filter_mod_length n g i' hi']
      split_ifs <;> omega
    · intro k hk j
      have hidx : idx k = (List.range (idx k).length).map fun j => k + j * g := by
        have hl := filter_mod_length n g k hk
        simp only [idx]
        rw [hl]
        have gen : ∀ n : ℕ, ((List.range n).filter fun i => i % g = k) =
            (List.range (n / g + if k < n % g then 1 else 0)).map fun j => k + j * g := by
          intro n
          induction n with
          | zero => simp
          | succ n ih =>
            have e1 := filter_mod_length n g k hk
            have e2 := filter_mod_length (n + 1) g k hk
            rw [List.range_succ, List.filter_append, List.length_append, e1] at e2
            rw [List.range_succ, List.filter_append, ih, ← e2]
            by_cases hm : n % g = k
            · rw [List.filter_cons_of_pos (by simpa using hm)]
              simp only [List.filter_nil, List.length_singleton]
              rw [List.range_succ, List.map_append]
              congr 1
              rw [if_neg (by omega)]
              simp only [List.map_cons, List.map_nil, add_zero]
              rw [← hm, Nat.mul_comm, Nat.mod_add_div]
            · rw [List.filter_cons_of_neg (by simpa using hm)]
              simp
        exact gen n
      simp only [List.getElem?_map, List.getElem?_range hk, Option.map_some, Option.bind_some]
      have hbound : ∀ j, j < (idx k).length → k + j * g < n := by
        intro j hj
        apply hin k
        rw [hidx]
        exact List.mem_map.2 ⟨j, List.mem_range.2 hj, rfl⟩
      have hfm : ((idx k).filterMap fun j => l[j]?) =
          (List.range (idx k).length).filterMap (fun j => l[k + j * g]?) := by
        conv_lhs => rw [hidx]
        rw [List.filterMap_map]
        rfl
      rw [hfm]
      by_cases hj : j < (idx k).length
      · have hm : (List.range (idx k).length).filterMap (fun j => l[k + j * g]?) =
            (List.range (idx k).length).pmap (fun j h => l[k + j * g]'(hbound j h)) (by simp) := by
          rw [List.pmap_eq_map_attach, ← List.filterMap_eq_map]
          conv_lhs => rw [← List.attach_map_subtype_val (List.range (idx k).length)]
          rw [List.filterMap_map]
          apply List.filterMap_congr
          rintro ⟨x, hx⟩ _
          simp only [Function.comp]
          rw [List.getElem?_eq_getElem (hbound x (List.mem_range.1 hx))]
        rw [hm, List.getElem?_pmap, List.getElem?_eq_getElem (hbound j hj)]
        simp [hj]
      · rw [List.getElem?_eq_none, List.getElem?_eq_none]
        · by_contra hcon
          push Not at hcon
          apply hj
          have hmem : k + j * g ∈ idx k := List.mem_filter.2 ⟨List.mem_range.2 hcon, by
            simp [Nat.mod_eq_of_lt hk]⟩
          rw [hidx] at hmem
          obtain ⟨j', hj', e⟩ := List.mem_map.1 hmem
          have : j' = j := by
            have : j' * g = j * g := by omega
            exact Nat.eq_of_mul_eq_mul_right (by omega) this
          rw [← this]; exact List.mem_range.1 hj'
        · exact (List.length_filterMap_le _ _).trans (by simpa using hj)

example : splitList ["a", "b", "c", "d", "e"] 2 .range = .ok [["a", "b", "c"], ["d", "e"]] := by decide
example : splitList ["a", "b", "c", "d", "e"] 2 .remainder = .ok [["a", "c", "e"], ["b", "d"]] := by decide

/-- **C43 (refusals).** `split_list` raises `AssertionError` exactly when there are no groups, more groups than items, or the
algorithm is unknown; so `dist_list` cannot be used with more processes than items, while `dist_range` can. -/
theorem C43_split_list_refused {α : Type*} (l : List α) (g : ℕ) (alg : SplitAlg) :
    splitList l g alg = .error .assertion ↔ g = 0 ∨ l.length < g ∨ alg = .other := by
  by_cases hc : 1 ≤ g ∧ g ≤ l.length
  · obtain ⟨⟨_, a, _⟩, ⟨_, b, _⟩⟩ := C43_split_list_partial l g hc.1 hc.2
    cases alg with
    | range => rw [a]; simp; omega
    | remainder => rw [b]; simp; omega
    | other =>
      unfold splitList
      rw [if_neg (by omega)]
      simp
  · unfold splitList
    rw [if_pos (by omega)]
    simp only [true_iff]
    omega

/-- **C43 (bounds).** `dist_bound` on process `r` returns the first and the last item of its range; it raises `ValueError` exactly
on the processes which get nothing, those with `r ≥ n`. -/
theorem C43_dist_bound (w : World) (n r : ℕ) (hr : r < w.size) :
    (distBound w n r = .error .value ↔ n ≤ r) ∧
    (r < n → ∃ a b, distBound w n r = .ok (a, b) ∧ a ≤ b ∧
      distRange w n r = (a, b + 1)) := by
  have hd : distRange w n r = (r * (n / w.size) + min r (n % w.size),
      (r + 1) * (n / w.size) + min (r + 1) (n % w.size)) := by
    unfold distRange
    rw [List.getD_eq_getElem?_getD, splitRange_get n w.size r hr]; rfl
  have hl := splitRange_len n w.size r
  have hle : (r * (n / w.size) + min r (n % w.size)) ≤ (r + 1) * (n / w.size) + min (r + 1) (n % w.size) :=
    Nat.add_le_add (Nat.mul_le_mul_right _ (Nat.le_succ r)) (min_le_min_right _ (Nat.le_succ r))
  have hpos : 0 < n / w.size + (if r < n % w.size then 1 else 0) ↔ r < n := by
    by_cases h : n < w.size
    · rw [Nat.div_eq_of_lt h, Nat.mod_eq_of_lt h]
      split_ifs <;> simp_all
    · have : 0 < n / w.size := Nat.div_pos (by omega) w.pos
      constructor
      · intro _; omega
      · intro _; omega
  have hcase : ∀ s m : ℕ, (List.range' s (m + 1)).min? = some s ∧ (List.range' s (m + 1)).max? = some (s + m) := by
    intro s m
    constructor
    · rw [List.min?_eq_some_iff]
      exact ⟨by simp, fun b hb => by simp at hb; omega⟩
    · rw [List.max?_eq_some_iff]
      exact ⟨by simp, fun b hb => by simp at hb; omega⟩
  unfold distBound rangeElems
  rw [hd]
  simp only
  rw [hl]
  by_cases h : r < n
  · obtain ⟨m, hm⟩ : ∃ m, n / w.size + (if r < n % w.size then 1 else 0) = m + 1 :=
      ⟨_, (Nat.sub_add_cancel (hpos.2 h)).symm⟩
    rw [hm, (hcase _ m).1, (hcase _ m).2]
    refine ⟨by simp; omega, fun _ => ⟨_, _, rfl, by omega, ?_⟩⟩
    rw [hm] at hl
    congr 1
    omega
  · have h0 : n / w.size + (if r < n % w.size then 1 else 0) = 0 := by
      by_contra hc
      exact h (hpos.1 (Nat.pos_of_ne_zero hc))
    rw [h0]
    refine ⟨by simp; omega, fun hc => absurd hc h⟩

example : distBound ⟨true, 3, by decide, by decide⟩ 7 1 = .ok (3, 4) := by decide
example : distBound ⟨true, 3, by decide, by decide⟩ 2 2 = .error .value := by decide

end Verif.Props

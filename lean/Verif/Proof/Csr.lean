import Verif.Spec.Csr
import Mathlib.Tactic.Ring
import Mathlib.Tactic.Linarith
import Mathlib.Algebra.BigOperators.Intervals

/-! # Proofs about the CSR builders -/

namespace Verif

variable {F E : Type*}

/-- Entries pushed to row `r`. -/
def rowsOf (P : List (ℤ × CsrEnt F E)) (r : ℤ) : List (CsrEnt F E) :=
  (P.filter (fun t => t.1 = r)).map Prod.snd

theorem rowsOf_snoc (P : List (ℤ × CsrEnt F E)) (t : ℤ × CsrEnt F E) (r : ℤ) :
    rowsOf (P ++ [t]) r = if t.1 = r then rowsOf P r ++ [t.2] else rowsOf P r := by
  unfold rowsOf
  rw [List.filter_append]
  split_ifs with h
  · rw [List.filter_cons_of_pos (by simpa using h)]; simp
  · rw [List.filter_cons_of_neg (by simpa using h)]; simp

theorem rowsOf_append (P Q : List (ℤ × CsrEnt F E)) (r : ℤ) :
    rowsOf (P ++ Q) r = rowsOf P r ++ rowsOf Q r := by
  unfold rowsOf; rw [List.filter_append, List.map_append]

theorem rowsOf_perm {P Q : List (ℤ × CsrEnt F E)} (h : P.Perm Q) (r : ℤ) :
    (rowsOf P r).Perm (rowsOf Q r) := (h.filter _).map _

theorem foldl_bump (P : List (ℤ × CsrEnt F E)) (f : ℤ → ℤ) (x : ℤ) :
    P.foldl (fun p t => arrBump p (t.1 + 1)) f x = f x + (rowsOf P (x - 1)).length := by
  induction P using List.reverseRecOn with
  | nil => simp [rowsOf]
  | append_singleton P t ih =>
    rw [List.foldl_append, rowsOf_snoc]
    simp only [List.foldl_cons, List.foldl_nil]
    generalize P.foldl (fun p t => arrBump p (t.1 + 1)) f = g at ih ⊢
    by_cases h : x = t.1 + 1
    · subst h
      simp only [add_sub_cancel_right] at ih ⊢
      simp [arrBump, arrPut, ih]; ring
    · have h2 : ¬ t.1 = x - 1 := by omega
      simp [arrBump, arrPut, h, h2, ih]

theorem prefixLoop_spec (n : ℕ) (p : ℤ → ℤ) (x : ℤ) :
    prefixLoop n p x = if 0 ≤ x ∧ x ≤ n then ∑ j ∈ Finset.range x.toNat, p ((j : ℤ) + 1) else p x := by
  unfold prefixLoop
  induction n generalizing x with
  | zero =>
    simp only [List.range_zero, List.foldl_nil, arrPut]
    by_cases h : x = 0
    · simp [h]
    · have : ¬ (0 ≤ x ∧ x ≤ ((0 : ℕ) : ℤ)) := by push_cast; omega
      rw [if_neg h, if_neg this]
  | succ n ih =>
    rw [List.range_succ, List.foldl_append]
    simp only [List.foldl_cons, List.foldl_nil]
    rw [arrPut]
    split_ifs with h1 h2 h2
    · subst h1
      rw [ih, ih]
      have e1 : (0 ≤ (n : ℤ) ∧ (n : ℤ) ≤ n) := by omega
      have e2 : ¬ (0 ≤ (n : ℤ) + 1 ∧ (n : ℤ) + 1 ≤ n) := by omega
      have e3 : ((n : ℤ) + 1).toNat = n + 1 := by omega
      rw [if_pos e1, if_neg e2, e3, Finset.sum_range_succ]
      simp
    · exfalso; push_cast at h2; omega
    · rw [ih, if_pos (by push_cast at h2; omega)]
    · rw [ih, if_neg (by push_cast at h2; omega)]

/-- Number of entries in rows rowsBelow `r`. -/
def rowsBelow (P : List (ℤ × CsrEnt F E)) (r : ℤ) : ℕ := P.countP (fun t => t.1 < r)

theorem rowsBelow_succ (P : List (ℤ × CsrEnt F E)) (r : ℤ) :
    rowsBelow P (r + 1) = rowsBelow P r + (rowsOf P r).length := by
  unfold rowsBelow rowsOf
  rw [List.length_map, ← List.countP_eq_length_filter]
  induction P with
  | nil => simp
  | cons t P ih =>
    simp only [List.countP_cons, ih]
    by_cases h1 : t.1 < r
    · have h2 : t.1 < r + 1 := by omega
      have h3 : ¬ t.1 = r := by omega
      simp [h1, h2, h3]; omega
    · by_cases h3 : t.1 = r
      · have h2 : t.1 < r + 1 := by omega
        simp [h3]; omega
      · have h2 : ¬ t.1 < r + 1 := by omega
        simp [h1, h2, h3]

theorem rowsBelow_mono (P : List (ℤ × CsrEnt F E)) {r s : ℤ} (h : r ≤ s) : rowsBelow P r ≤ rowsBelow P s := by
  unfold rowsBelow
  apply List.countP_mono_left
  intro t _ ht
  simp only [decide_eq_true_eq] at ht ⊢; omega

theorem sum_rows {P : List (ℤ × CsrEnt F E)} (h0 : ∀ t ∈ P, 0 ≤ t.1) (k : ℕ) :
    ∑ j ∈ Finset.range k, ((rowsOf P (j : ℤ)).length : ℤ) = rowsBelow P k := by
  induction k with
  | zero =>
    simp only [Finset.range_zero, Finset.sum_empty]
    symm
    rw [rowsBelow, Nat.cast_eq_zero, List.countP_eq_zero]
    intro t ht
    have := h0 t ht
    simpa using this
  | succ k ih =>
    rw [Finset.sum_range_succ, ih]
    push_cast
    rw [rowsBelow_succ]; push_cast; ring

/-- The row pointers computed from the counts. -/
theorem prefix_count {P : List (ℤ × CsrEnt F E)} (h0 : ∀ t ∈ P, 0 ≤ t.1) (n : ℕ) {x : ℤ}
    (hx : 0 ≤ x ∧ x ≤ n) :
    prefixLoop n (P.foldl (fun p t => arrBump p (t.1 + 1)) (fun _ => 0)) x = rowsBelow P x := by
  rw [prefixLoop_spec, if_pos hx]
  have : (x.toNat : ℤ) = x := by omega
  rw [← this, ← sum_rows h0]
  simp only [Int.toNat_natCast]
  refine Finset.sum_congr rfl (fun j _ => ?_)
  rw [foldl_bump]; simp

/-- Invariant of the filling loop. -/
structure FillInv (ip : ℤ → ℤ) (P : List (ℤ × CsrEnt F E)) (st : Fill F E) : Prop where
  cnt : ∀ r, st.cnt r = (rowsOf P r).length
  ent : ∀ r (k : ℕ) e, (rowsOf P r)[k]? = some e → st.ent (ip r + k) = e
  wr : ∀ w ∈ st.writes, ∃ r, ∃ k : ℕ, k < (rowsOf P r).length ∧ w = ip r + k
  nodup : st.writes.Nodup
  len : st.writes.length = P.length

theorem fill_inv (ip : ℤ → ℤ) (N : ℤ → ℕ) (junk : CsrEnt F E)
    (hD : ∀ r s (k l : ℕ), k < N r → l < N s → ip r + k = ip s + l → r = s ∧ k = l) :
    ∀ P : List (ℤ × CsrEnt F E), (∀ r, (rowsOf P r).length ≤ N r) →
      FillInv ip P (P.foldl (fun st t => csrPush ip st t.1 t.2) ⟨fun _ => 0, fun _ => junk, []⟩) := by
  intro P
  induction P using List.reverseRecOn with
  | nil => intro _; exact ⟨by simp [rowsOf], by simp [rowsOf], by simp, by simp, by simp⟩
  | append_singleton P t ih =>
    intro hN
    have hN' : ∀ r, (rowsOf P r).length ≤ N r := fun r => by
      have := hN r
      rw [rowsOf_append, List.length_append] at this; omega
    have I := ih hN'
    rw [List.foldl_append]
    simp only [List.foldl_cons, List.foldl_nil]
    generalize hst : P.foldl (fun st t => csrPush ip st t.1 t.2) ⟨fun _ => 0, fun _ => junk, []⟩ = st at I ⊢
    have hlen : (rowsOf P t.1).length < N t.1 := by
      have := hN t.1
      rw [rowsOf_snoc, if_pos rfl] at this
      simp at this; omega
    have hlift : ∀ r (k : ℕ), k < (rowsOf P r).length → k < (rowsOf (P ++ [t]) r).length := by
      intro r k hk; rw [rowsOf_append, List.length_append]; omega
    refine ⟨?_, ?_, ?_, ?_, ?_⟩
    · intro r
      simp only [csrPush, arrBump, arrPut, rowsOf_snoc]
      by_cases h : r = t.1
      · subst h; simp [I.cnt]
      · simp [h, Ne.symm h, I.cnt]
    · intro r k e hk
      simp only [csrPush, arrPut, I.cnt]
      by_cases h : ip r + (k : ℤ) = ip t.1 + ((rowsOf P t.1).length : ℤ)
      · rw [if_pos h]
        have hk' : k < (rowsOf (P ++ [t]) r).length := (List.getElem?_eq_some_iff.1 hk).1
        obtain ⟨rfl, rfl⟩ := hD r t.1 k _ (lt_of_lt_of_le hk' (hN r)) hlen h
        rw [rowsOf_snoc, if_pos rfl] at hk
        simp at hk; exact hk
      · rw [if_neg h]
        apply I.ent r k e
        rw [rowsOf_snoc] at hk
        split_ifs at hk with h3
        · rw [List.getElem?_append] at hk
          split_ifs at hk with h4
          · exact hk
          · exfalso
            have hkl := (List.getElem?_eq_some_iff.1 hk).1
            simp at hkl
            apply h
            rw [h3]; congr 2; omega
        · exact hk
    · intro w hw
      simp only [csrPush, List.mem_append, List.mem_singleton] at hw
      rcases hw with hw | rfl
      · obtain ⟨r, k, hk, rfl⟩ := I.wr w hw
        exact ⟨r, k, hlift r k hk, rfl⟩
      · refine ⟨t.1, (rowsOf P t.1).length, ?_, by rw [I.cnt]⟩
        rw [rowsOf_snoc, if_pos rfl]; simp
    · simp only [csrPush]
      rw [List.nodup_append]
      refine ⟨I.nodup, by simp, ?_⟩
      intro w hw x hx
      simp only [List.mem_singleton] at hx
      rintro rfl
      obtain ⟨r, k, hk, he⟩ := I.wr w hw
      rw [hx, I.cnt] at he
      obtain ⟨h1, h2⟩ := hD _ _ _ _ hlen (lt_of_lt_of_le hk (hN' r)) he
      subst h1; omega
    · simp [csrPush, I.len]

theorem csrSlice_eq {ent : ℤ → CsrEnt F E} {p0 p1 : ℤ} {L : List (CsrEnt F E)}
    (hl : p1 = p0 + L.length) (h : ∀ (k : ℕ) e, L[k]? = some e → ent (p0 + k) = e) :
    csrSlice ent p0 p1 = L := by
  apply List.ext_getElem?
  intro k
  unfold csrSlice
  have e1 : (p1 - p0).toNat = L.length := by omega
  rw [e1, List.getElem?_map]
  by_cases hk : k < L.length
  · rw [List.getElem?_range hk, List.getElem?_eq_getElem hk]
    simp only [Option.map_some, Option.some.injEq]
    exact h k _ (List.getElem?_eq_getElem hk)
  · rw [List.getElem?_eq_none (by simpa using hk), List.getElem?_eq_none (by omega)]; rfl

theorem perm_range_of {w : List ℤ} {T : ℕ} (hn : w.Nodup) (hl : w.length = T)
    (hr : ∀ x ∈ w, 0 ≤ x ∧ x < T) : w.Perm ((List.range T).map (fun k : ℕ => (k : ℤ))) := by
  have hsub : w ⊆ (List.range T).map (fun k : ℕ => (k : ℤ)) := by
    intro x hx
    obtain ⟨h0, h1⟩ := hr x hx
    simp only [List.mem_map, List.mem_range]
    exact ⟨x.toNat, by omega, by omega⟩
  exact (List.subperm_of_subset hn hsub).perm_of_length_le (by simp [hl])

theorem rowsBelow_total {P : List (ℤ × CsrEnt F E)} {n : ℕ} (h : ∀ t ∈ P, t.1 < n) : rowsBelow P n = P.length := by
  unfold rowsBelow
  rw [List.countP_eq_length]
  intro t ht; simpa using h t ht

/-- A matrix filled by pushing `P` with the right row pointers. -/
theorem fill_valid {P : List (ℤ × CsrEnt F E)} {n : ℕ} {ip : ℤ → ℤ} {junk : CsrEnt F E}
    (hr : ∀ t ∈ P, 0 ≤ t.1 ∧ t.1 < n) (hip : ∀ x : ℤ, 0 ≤ x ∧ x ≤ n → ip x = rowsBelow P x) :
    let st := P.foldl (fun st t => csrPush ip st t.1 t.2) (⟨fun _ => 0, fun _ => junk, []⟩ : Fill F E)
    (∀ r : ℤ, 0 ≤ r → r < n → csrSlice st.ent (ip r) (ip (r + 1)) = rowsOf P r) ∧
      st.writes.Perm ((List.range (ip n).toNat).map (fun k : ℕ => (k : ℤ))) := by
  have hrow : ∀ r (k : ℕ), k < (rowsOf P r).length → 0 ≤ r ∧ r < n := by
    intro r k hk
    have hne : rowsOf P r ≠ [] := by rintro h; rw [h] at hk; simp at hk
    obtain ⟨e, he⟩ := List.exists_mem_of_ne_nil _ hne
    simp only [rowsOf, List.mem_map, List.mem_filter, decide_eq_true_eq] at he
    obtain ⟨t, ⟨ht, rfl⟩, _⟩ := he
    exact hr t ht
  have hD : ∀ r s (k l : ℕ), k < (rowsOf P r).length → l < (rowsOf P s).length →
      ip r + k = ip s + l → r = s ∧ k = l := by
    intro r s k l hk hl he
    have h1 := hrow r k hk
    have h2 := hrow s l hl
    rw [hip r (by omega), hip s (by omega)] at he
    have b1 := rowsBelow_succ P r
    have b2 := rowsBelow_succ P s
    rcases lt_trichotomy r s with h | h | h
    · have := rowsBelow_mono P (show r + 1 ≤ s by omega); omega
    · subst h; exact ⟨rfl, by omega⟩
    · have := rowsBelow_mono P (show s + 1 ≤ r by omega); omega
  have I := fill_inv ip (fun r => (rowsOf P r).length) junk hD P (fun r => le_refl _)
  refine ⟨?_, ?_⟩
  · intro r h0 h1
    apply csrSlice_eq
    · rw [hip r (by omega), hip (r + 1) (by omega), rowsBelow_succ]; push_cast; ring
    · intro k e hk; exact I.ent r k e hk
  · have hn : ip n = P.length := by
      rw [hip n (by omega), rowsBelow_total (fun t ht => (hr t ht).2)]
    rw [hn, Int.toNat_natCast]
    apply perm_range_of I.nodup I.len
    intro w hw
    obtain ⟨r, k, hk, rfl⟩ := I.wr w hw
    have h1 := hrow r k hk
    rw [hip r (by omega)]
    have b1 := rowsBelow_succ P r
    have b2 := rowsBelow_mono P (show r + 1 ≤ (n : ℤ) by omega)
    rw [rowsBelow_total (fun t ht => (hr t ht).2)] at b2
    omega

section Fast

variable [Field F] [LinearOrder F] [Star E]

/-- The pushes of the fast builder, in order. -/
def fastPushes (ι : F → E) (cutoff : F) (eng : List F) (hops : List (SCHop F E)) :
    List (ℤ × CsrEnt F E) :=
  (eng.zipIdx.filter (fun q => keepEng cutoff q.1)).map
      (fun q => ((q.2 : ℤ), (⟨q.2, ι q.1, 0, 0⟩ : CsrEnt F E))) ++
    hops.flatMap (fun h => [(h.i, ⟨h.j, h.v, h.dr 0, h.dr 1⟩),
      (h.j, ⟨h.i, star h.v, -h.dr 0, -h.dr 1⟩)])

theorem foldl_pushes {S : Type*} (ι : F → E) (cutoff : F) (eng : List F) (hops : List (SCHop F E))
    (g : S → ℤ × CsrEnt F E → S) (s : S) :
    hops.foldl (fun st h => g (g st (h.i, ⟨h.j, h.v, h.dr 0, h.dr 1⟩)) (h.j, ⟨h.i, star h.v, -h.dr 0, -h.dr 1⟩))
      (eng.zipIdx.foldl (fun st q => if keepEng cutoff q.1 then
        g st ((q.2 : ℤ), (⟨q.2, ι q.1, 0, 0⟩ : CsrEnt F E)) else st) s) =
    (fastPushes ι cutoff eng hops).foldl g s := by
  unfold fastPushes
  rw [List.foldl_append]
  have e1 : (eng.zipIdx.foldl (fun st q => if keepEng cutoff q.1 then
        g st ((q.2 : ℤ), (⟨q.2, ι q.1, 0, 0⟩ : CsrEnt F E)) else st) s) =
      ((eng.zipIdx.filter (fun q => keepEng cutoff q.1)).map
        (fun q => ((q.2 : ℤ), (⟨q.2, ι q.1, 0, 0⟩ : CsrEnt F E)))).foldl g s := by
    rw [List.foldl_map, List.foldl_filter]
  rw [e1]
  generalize (((eng.zipIdx.filter (fun q => keepEng cutoff q.1)).map
        (fun q => ((q.2 : ℤ), (⟨q.2, ι q.1, 0, 0⟩ : CsrEnt F E)))).foldl g s) = s1
  induction hops generalizing s1 with
  | nil => rfl
  | cons h hs ih => simp only [List.foldl_cons, List.flatMap_cons, List.foldl_append, List.foldl_nil]; rw [ih]

theorem fastPushes_perm (ι : F → E) (cutoff : F) (eng : List F) (hops : List (SCHop F E)) :
    (fastPushes ι cutoff eng hops).Perm (safeFull ι cutoff eng hops) := by
  unfold fastPushes safeFull
  rw [List.append_assoc]
  refine List.Perm.append_left _ ?_
  induction hops with
  | nil => simp
  | cons h hs ih =>
    simp only [List.flatMap_cons, List.map_cons, List.cons_append, List.nil_append]
    refine List.Perm.cons _ ?_
    refine (List.Perm.cons _ ih).trans ?_
    exact List.perm_middle.symm

theorem safeFull_rows {ι : F → E} {cutoff : F} {eng : List F} {hops : List (SCHop F E)}
    (hh : TermsInRange eng.length hops) : ∀ t ∈ safeFull ι cutoff eng hops,
      (0 ≤ t.1 ∧ t.1 < eng.length) ∧ (0 ≤ t.2.col ∧ t.2.col < eng.length) := by
  intro t ht
  simp only [safeFull, List.mem_append, List.mem_map, List.mem_filter] at ht
  rcases ht with (⟨q, ⟨hq, _⟩, rfl⟩ | ⟨h, hm, rfl⟩) | ⟨h, hm, rfl⟩
  · obtain ⟨x, i⟩ := q
    have := List.snd_lt_of_mem_zipIdx hq
    simp only
    omega
  · have := hh h hm; simp only; omega
  · have := hh h hm; simp only; omega

theorem fast_eq {ι : F → E} {junk : CsrEnt F E} {cutoff : F} {eng : List F} {hops : List (SCHop F E)} :
    buildFast ι junk cutoff eng hops =
      let ip := prefixLoop eng.length ((fastPushes ι cutoff eng hops).foldl
        (fun p t => arrBump p (t.1 + 1)) (fun _ => 0))
      let st := (fastPushes ι cutoff eng hops).foldl (fun st t => csrPush ip st t.1 t.2)
        ⟨fun _ => 0, fun _ => junk, []⟩
      ⟨ip, st.ent, st.writes⟩ := by
  have hc : fastCount cutoff eng hops = (fastPushes ι cutoff eng hops).foldl
        (fun p t => arrBump p (t.1 + 1)) (fun _ => 0) := by
    rw [← foldl_pushes]; rfl
  unfold buildFast
  simp only [hc]
  rw [← foldl_pushes ι cutoff eng hops (fun (st : Fill F E) t => csrPush _ st t.1 t.2)]

theorem fast_ip {ι : F → E} {junk : CsrEnt F E} {cutoff : F} {eng : List F} {hops : List (SCHop F E)}
    (hh : TermsInRange eng.length hops) {x : ℤ} (hx : 0 ≤ x ∧ x ≤ eng.length) :
    (buildFast ι junk cutoff eng hops).indptr x = rowsBelow (fastPushes ι cutoff eng hops) x := by
  rw [fast_eq]
  exact prefix_count (fun t ht => (safeFull_rows hh t ((fastPushes_perm ι cutoff eng hops).mem_iff.1 ht)).1.1)
    _ hx

theorem fast_rows {ι : F → E} {junk : CsrEnt F E} {cutoff : F} {eng : List F} {hops : List (SCHop F E)}
    (hh : TermsInRange eng.length hops) :
    (∀ r : ℤ, 0 ≤ r → r < eng.length → (buildFast ι junk cutoff eng hops).row r =
      rowsOf (fastPushes ι cutoff eng hops) r) ∧
    (buildFast ι junk cutoff eng hops).writes.Perm
      ((List.range ((buildFast ι junk cutoff eng hops).indptr eng.length).toNat).map (fun k : ℕ => (k : ℤ))) := by
  have hr : ∀ t ∈ fastPushes ι cutoff eng hops, 0 ≤ t.1 ∧ t.1 < eng.length := fun t ht =>
    (safeFull_rows hh t ((fastPushes_perm ι cutoff eng hops).mem_iff.1 ht)).1
  have key := fill_valid (junk := junk) hr (ip := (buildFast ι junk cutoff eng hops).indptr)
    (fun x hx => fast_ip hh hx)
  have e : (buildFast ι junk cutoff eng hops).ent = ((fastPushes ι cutoff eng hops).foldl
      (fun st t => csrPush (buildFast ι junk cutoff eng hops).indptr st t.1 t.2)
      ⟨fun _ => 0, fun _ => junk, []⟩).ent := by rw [fast_eq]
  have e' : (buildFast ι junk cutoff eng hops).writes = ((fastPushes ι cutoff eng hops).foldl
      (fun st t => csrPush (buildFast ι junk cutoff eng hops).indptr st t.1 t.2)
      ⟨fun _ => 0, fun _ => junk, []⟩).writes := by rw [fast_eq]
  refine ⟨fun r h0 h1 => ?_, ?_⟩
  · unfold Csr.row; rw [e]; exact key.1 r h0 h1
  · rw [e']; exact key.2

end Fast

/-! ### Safe builder -/

theorem getD_lookup_perm {α : Type*} (L : List α) (d : α) {ind : List ℕ} (h : ind.Perm (List.range L.length)) :
    (ind.map (fun k => L.getD k d)).Perm L := by
  refine (h.map _).trans ?_
  apply List.Perm.of_eq
  apply List.ext_getElem?
  intro k
  rw [List.getElem?_map]
  by_cases hk : k < L.length
  · rw [List.getElem?_range hk, List.getElem?_eq_getElem hk]
    simp [List.getD_eq_getElem?_getD, List.getElem?_eq_getElem hk]
  · rw [List.getElem?_eq_none (by simpa using hk), List.getElem?_eq_none (by omega)]; rfl

/-- In a list sorted by row, the slice between two row pointers is the row. -/
theorem sorted_slice {S : List (ℤ × CsrEnt F E)} (hs : (S.map Prod.fst).Pairwise (· ≤ ·)) (r : ℤ) :
    ∀ (k : ℕ) e, (rowsOf S r)[k]? = some e → (S[rowsBelow S r + k]?).map Prod.snd = some e := by
  induction S with
  | nil => simp [rowsOf]
  | cons t S ih =>
    rw [List.map_cons, List.pairwise_cons] at hs
    intro k e hk
    by_cases h1 : t.1 < r
    · have e1 : rowsOf (t :: S) r = rowsOf S r := by
        unfold rowsOf; rw [List.filter_cons_of_neg (by simp; omega)]
      have e2 : rowsBelow (t :: S) r = rowsBelow S r + 1 := by
        unfold rowsBelow; rw [List.countP_cons_of_pos (by simpa using h1)]
      rw [e1] at hk
      rw [e2, show rowsBelow S r + 1 + k = (rowsBelow S r + k) + 1 by omega, List.getElem?_cons_succ]
      exact ih hs.2 k e hk
    · have e2 : rowsBelow (t :: S) r = 0 := by
        unfold rowsBelow; rw [List.countP_eq_zero]
        intro u hu
        rcases List.mem_cons.1 hu with rfl | hu
        · simpa using h1
        · have := hs.1 u.1 (List.mem_map_of_mem hu); simp; omega
      have e3 : rowsBelow S r = 0 := by
        unfold rowsBelow at e2 ⊢; rw [List.countP_eq_zero] at e2 ⊢
        intro u hu; exact e2 u (List.mem_cons_of_mem _ hu)
      rw [e2]
      by_cases h2 : t.1 = r
      · have e1 : rowsOf (t :: S) r = t.2 :: rowsOf S r := by
          unfold rowsOf; rw [List.filter_cons_of_pos (by simpa using h2)]; rfl
        rw [e1] at hk
        cases k with
        | zero => simp at hk ⊢; exact hk
        | succ k =>
          rw [List.getElem?_cons_succ] at hk
          have := ih hs.2 k e hk
          rw [e3] at this
          rw [show 0 + (k + 1) = (0 + k) + 1 by omega, List.getElem?_cons_succ]; exact this
      · exfalso
        have : rowsOf (t :: S) r = [] := by
          unfold rowsOf; rw [List.map_eq_nil_iff, List.filter_eq_nil_iff]
          intro u hu
          rcases List.mem_cons.1 hu with rfl | hu
          · simpa using h2
          · have := hs.1 u.1 (List.mem_map_of_mem hu); simp; omega
        rw [this] at hk; simp at hk

section Safe

variable [Field F] [LinearOrder F] [Star E]

theorem safe_rows {f : List ℤ → List ℕ} (hf : ArgsortOK f) {ι : F → E} {junk : CsrEnt F E} {cutoff : F}
    {eng : List F} {hops : List (SCHop F E)} (hh : TermsInRange eng.length hops) :
    let c := buildSafe f ι junk cutoff eng hops
    (∀ x : ℤ, 0 ≤ x → x ≤ eng.length → c.indptr x = rowsBelow (safeFull ι cutoff eng hops) x) ∧
    (∀ r : ℤ, 0 ≤ r → r < eng.length → (c.row r).Perm (rowsOf (safeFull ι cutoff eng hops) r)) ∧
    c.writes.Perm ((List.range (c.indptr eng.length).toNat).map (fun k : ℕ => (k : ℤ))) := by
  intro c
  set full := safeFull ι cutoff eng hops with hfull
  set S := (f (full.map Prod.fst)).map (fun k => full.getD k (0, junk)) with hS
  have hp : S.Perm full := by
    apply getD_lookup_perm
    have := hf.perm (full.map Prod.fst)
    rwa [List.length_map] at this
  have hsorted : (S.map Prod.fst).Pairwise (· ≤ ·) := by
    have := hf.sorted (full.map Prod.fst)
    have e : S.map Prod.fst = (f (full.map Prod.fst)).map (fun k => (full.map Prod.fst).getD k 0) := by
      rw [hS, List.map_map]
      refine List.map_congr_left (fun k _ => ?_)
      simp only [Function.comp, List.getD_eq_getElem?_getD, List.getElem?_map]
      cases full[k]? <;> rfl
    rwa [e]
  have hrows : ∀ t ∈ S, 0 ≤ t.1 ∧ t.1 < eng.length := fun t ht =>
    (safeFull_rows hh t (hp.mem_iff.1 ht)).1
  have hb : ∀ x, rowsBelow S x = rowsBelow full x := fun x => hp.countP_eq _
  have hip : ∀ x : ℤ, 0 ≤ x → x ≤ eng.length → c.indptr x = rowsBelow S x := by
    intro x h0 h1
    exact prefix_count (fun t ht => (hrows t ht).1) _ ⟨h0, h1⟩
  refine ⟨fun x h0 h1 => by rw [hip x h0 h1, hb], ?_, ?_⟩
  · intro r h0 h1
    refine List.Perm.trans (List.Perm.of_eq ?_) (rowsOf_perm hp r)
    apply csrSlice_eq
    · rw [hip r h0 (by omega), hip (r + 1) (by omega) (by omega), rowsBelow_succ]; push_cast; ring
    · intro k e hk
      have := sorted_slice hsorted r k e hk
      rw [hip r h0 (by omega)]
      change (if 0 ≤ ((rowsBelow S r : ℕ) : ℤ) + (k : ℤ) then
        (S.getD (((rowsBelow S r : ℕ) : ℤ) + (k : ℤ)).toNat (0, junk)).2 else junk) = e
      rw [if_pos (by omega), show (((rowsBelow S r : ℕ) : ℤ) + (k : ℤ)).toNat = rowsBelow S r + k by omega]
      rw [List.getD_eq_getElem?_getD]
      obtain ⟨t, ht, rfl⟩ := Option.map_eq_some_iff.1 this
      rw [ht]; rfl
  · rw [hip _ (by omega) (by omega), rowsBelow_total (fun t ht => (hrows t ht).2), Int.toNat_natCast]
    exact List.Perm.refl _

end Safe

/-! ### Matrix elements -/

theorem zipIdx_filter_idx {α : Type*} (l : List α) (d : α) (a : ℤ) : ∀ n : ℕ,
    (l.zipIdx n).filter (fun q => (q.2 : ℤ) = a) =
      if (n : ℤ) ≤ a ∧ a < n + l.length then [(l.getD (a - n).toNat d, a.toNat)] else [] := by
  induction l with
  | nil => intro n; simp
  | cons x l ih =>
    intro n
    rw [List.zipIdx_cons]
    by_cases h : (n : ℤ) = a
    · rw [List.filter_cons_of_pos (by simpa using h), ih (n + 1), if_neg (by push_cast; omega),
        if_pos (by simp; omega)]
      subst h; simp
    · rw [List.filter_cons_of_neg (by simpa using h), ih (n + 1)]
      by_cases h2 : ((n + 1 : ℕ) : ℤ) ≤ a ∧ a < ((n + 1 : ℕ) : ℤ) + l.length
      · rw [if_pos h2, if_pos (by push_cast at h2; simp only [List.length_cons]; push_cast; omega)]
        obtain ⟨m, hm⟩ : ∃ m, (a - (n : ℤ)).toNat = m + 1 := ⟨(a - n).toNat - 1, by push_cast at h2; omega⟩
        rw [hm, List.getD_cons_succ, show (a - ((n + 1 : ℕ) : ℤ)).toNat = m by push_cast; omega]
      · rw [if_neg h2, if_neg (by push_cast at h2; simp only [List.length_cons]; push_cast; omega)]

section Mat

variable [Field F] [LinearOrder F] [AddCommMonoid E] [StarAddMonoid E]

theorem list_sum_star (l : List E) : star l.sum = (l.map star).sum := by
  induction l with
  | nil => simp
  | cons x l ih => simp [ih]

theorem diag_rows (ι : F → E) (cutoff : F) (eng : List F) (a : ℤ) :
    rowsOf ((eng.zipIdx.filter (fun q => keepEng cutoff q.1)).map
      (fun q => ((q.2 : ℤ), (⟨q.2, ι q.1, 0, 0⟩ : CsrEnt F E)))) a =
    if 0 ≤ a ∧ a < eng.length ∧ cutoff ≤ |eng.getD a.toNat 0| then
      [⟨a, ι (eng.getD a.toNat 0), 0, 0⟩] else [] := by
  unfold rowsOf
  rw [List.filter_map, List.filter_filter, List.map_map]
  have e : (fun x : F × ℕ => ((fun t : ℤ × CsrEnt F E => decide (t.1 = a)) ∘
      fun q : F × ℕ => ((q.2 : ℤ), (⟨q.2, ι q.1, 0, 0⟩ : CsrEnt F E))) x && keepEng cutoff x.1) =
      (fun x => keepEng cutoff x.1 && decide ((x.2 : ℤ) = a)) := by
    funext x; simp [Bool.and_comm]
  rw [e, ← List.filter_filter, zipIdx_filter_idx eng 0 a 0]
  by_cases h : 0 ≤ a ∧ a < eng.length
  · rw [if_pos (by push_cast; omega)]
    simp only [Nat.cast_zero, sub_zero]
    have ha : ((a.toNat : ℕ) : ℤ) = a := by omega
    by_cases h2 : cutoff ≤ |eng.getD a.toNat 0|
    · rw [List.filter_cons_of_pos (by simpa [keepEng] using h2), if_pos ⟨h.1, h.2, h2⟩]
      simp [ha]
    · rw [List.filter_cons_of_neg (by simpa [keepEng] using h2), if_neg (by tauto)]; simp
  · rw [if_neg (by push_cast; omega), if_neg (by tauto)]; rfl

theorem rows_mat (ι : F → E) (cutoff : F) (eng : List F) (hops : List (SCHop F E)) (a b : ℤ)
    {M : Type*} [AddCommMonoid M] (g : CsrEnt F E → M) :
    (((rowsOf (safeFull ι cutoff eng hops) a).filter (fun e => e.col = b)).map g).sum =
      (if a = b ∧ 0 ≤ a ∧ a < eng.length ∧ cutoff ≤ |eng.getD a.toNat 0| then
        g ⟨a, ι (eng.getD a.toNat 0), 0, 0⟩ else 0) +
      ((hops.filter (fun h => h.i = a ∧ h.j = b)).map (fun h => g ⟨h.j, h.v, h.dr 0, h.dr 1⟩)).sum +
      ((hops.filter (fun h => h.i = b ∧ h.j = a)).map (fun h => g ⟨h.i, star h.v, -h.dr 0, -h.dr 1⟩)).sum := by
  unfold safeFull
  rw [rowsOf_append, rowsOf_append, diag_rows]
  rw [List.filter_append, List.filter_append, List.map_append, List.map_append, List.sum_append,
    List.sum_append]
  congr 1
  · congr 1
    · by_cases h : 0 ≤ a ∧ a < eng.length ∧ cutoff ≤ |eng.getD a.toNat 0|
      · rw [if_pos h]
        by_cases h2 : a = b
        · rw [if_pos ⟨h2, h⟩, List.filter_cons_of_pos (by simpa using h2)]; simp
        · rw [if_neg (by tauto), List.filter_cons_of_neg (by simpa using h2)]; simp
      · rw [if_neg h, if_neg (by tauto)]; simp
    · unfold rowsOf
      rw [List.filter_map, List.map_map, List.filter_map, List.filter_map, List.filter_filter, List.map_map]
      congr 1
      rw [List.filter_congr (q := fun h => decide (h.i = a ∧ h.j = b))
        (fun x _ => by simp [Bool.and_comm])]
      rfl
  · unfold rowsOf
    rw [List.filter_map, List.map_map, List.filter_map, List.filter_map, List.filter_filter, List.map_map]
    congr 1
    rw [List.filter_congr (q := fun h => decide (h.i = b ∧ h.j = a))
      (fun x _ => by simp)]
    rfl

end Mat

/-! ### Column sort -/

theorem foldl_put (L : List (CsrEnt F E)) (p0 : ℤ) (en : ℤ → CsrEnt F E) : ∀ (n : ℕ) (x : ℤ),
    (L.zipIdx n).foldl (fun en q => arrPut en (p0 + (q.2 : ℤ)) q.1) en x =
      if p0 + n ≤ x ∧ x < p0 + n + L.length then L.getD (x - p0 - n).toNat (en x) else en x := by
  induction L generalizing en with
  | nil => intro n x; simp
  | cons e L ih =>
    intro n x
    rw [List.zipIdx_cons, List.foldl_cons, ih]
    simp only [arrPut]
    push_cast
    by_cases h1 : x = p0 + n
    · subst h1
      rw [if_neg (by omega), if_pos rfl, if_pos (by simp only [List.length_cons]; push_cast; omega)]
      simp
    · rw [if_neg h1]
      by_cases h2 : p0 + ((n : ℤ) + 1) ≤ x ∧ x < p0 + ((n : ℤ) + 1) + L.length
      · rw [if_pos h2, if_pos (by simp only [List.length_cons]; push_cast; omega)]
        obtain ⟨m, hm⟩ : ∃ m, (x - p0 - (n : ℤ)).toNat = m + 1 := ⟨(x - p0 - n).toNat - 1, by omega⟩
        rw [hm, List.getD_cons_succ, show (x - p0 - ((n : ℤ) + 1)).toNat = m by omega]
      · rw [if_neg h2, if_neg (by simp only [List.length_cons]; push_cast; omega)]

theorem csrSlice_length (ent : ℤ → CsrEnt F E) (p0 p1 : ℤ) : (csrSlice ent p0 p1).length = (p1 - p0).toNat := by
  simp [csrSlice]

theorem csrSlice_congr {e1 e2 : ℤ → CsrEnt F E} {p0 p1 : ℤ} (h : ∀ x, p0 ≤ x → x < p1 → e1 x = e2 x) :
    csrSlice e1 p0 p1 = csrSlice e2 p0 p1 := by
  unfold csrSlice
  refine List.map_congr_left (fun k hk => ?_)
  rw [List.mem_range] at hk
  exact h _ (by omega) (by omega)

theorem sortRow_spec {f : List ℤ → List ℕ} (hf : ArgsortOK f) (ip : ℤ → ℤ) (ent : ℤ → CsrEnt F E) (r : ℕ) :
    (∀ x, ¬ (ip r ≤ x ∧ x < ip ((r : ℤ) + 1)) → sortRow f ip ent r x = ent x) ∧
    (csrSlice (sortRow f ip ent r) (ip r) (ip ((r : ℤ) + 1))).Perm (csrSlice ent (ip r) (ip ((r : ℤ) + 1))) ∧
    ((csrSlice (sortRow f ip ent r) (ip r) (ip ((r : ℤ) + 1))).map CsrEnt.col).Pairwise (· ≤ ·) := by
  set p0 := ip r
  set p1 := ip ((r : ℤ) + 1)
  set buf := csrSlice ent p0 p1 with hbuf
  have hlb : buf.length = (p1 - p0).toNat := csrSlice_length _ _ _
  set S := (f (buf.map CsrEnt.col)).map (fun k => buf.getD k (ent p0)) with hS
  have hSl : S.length = buf.length := by
    rw [hS, List.length_map, (hf.perm _).length_eq, List.length_range, List.length_map]
  have hrow : sortRow f ip ent r = S.zipIdx.foldl (fun en q => arrPut en (p0 + (q.2 : ℤ)) q.1) ent := by
    unfold sortRow
    rw [hS, List.zipIdx_map, List.foldl_map]
    rfl
  have hout : ∀ x, sortRow f ip ent r x =
      if p0 ≤ x ∧ x < p0 + S.length then S.getD (x - p0).toNat (ent x) else ent x := by
    intro x
    rw [hrow, foldl_put]; simp
  have hslice : csrSlice (sortRow f ip ent r) p0 p1 = S := by
    apply List.ext_getElem?
    intro k
    unfold csrSlice
    rw [List.getElem?_map]
    by_cases hk : k < S.length
    · rw [List.getElem?_range (by omega), List.getElem?_eq_getElem hk]
      simp only [Option.map_some, Option.some.injEq]
      rw [hout, if_pos (by omega), show (p0 + (k : ℤ) - p0).toNat = k by omega]
      simp [List.getD_eq_getElem?_getD, List.getElem?_eq_getElem hk]
    · rw [List.getElem?_eq_none (by simp; omega), List.getElem?_eq_none (by omega)]; rfl
  have hp : S.Perm buf := by
    apply getD_lookup_perm
    have := hf.perm (buf.map CsrEnt.col)
    rwa [List.length_map] at this
  refine ⟨fun x hx => ?_, by rw [hslice]; exact hp, ?_⟩
  · rw [hout, if_neg]
    intro h; apply hx; omega
  · rw [hslice]
    have := hf.sorted (buf.map CsrEnt.col)
    have e : S.map CsrEnt.col = (f (buf.map CsrEnt.col)).map (fun k => (buf.map CsrEnt.col).getD k 0) := by
      rw [hS, List.map_map]
      refine List.map_congr_left (fun k hk => ?_)
      have hk' : k < buf.length := by
        have := (hf.perm (buf.map CsrEnt.col)).mem_iff.1 hk
        simpa using this
      simp [List.getD_eq_getElem?_getD, List.getElem?_eq_getElem hk']
    rwa [e]

theorem ip_mono {ip : ℤ → ℤ} {n : ℕ} (h : ∀ r : ℕ, r < n → ip r ≤ ip ((r : ℤ) + 1)) :
    ∀ (b a : ℕ), a ≤ b → b ≤ n → ip a ≤ ip b := by
  intro b
  induction b with
  | zero => intro a ha _; rw [Nat.le_zero.1 ha]
  | succ b ih =>
    intro a ha hb
    rcases Nat.eq_or_lt_of_le ha with rfl | hlt
    · exact le_refl _
    · have h1 := ih a (by omega) (by omega)
      have h2 := h b (by omega)
      push_cast; omega

theorem sortCol_rows {f : List ℤ → List ℕ} (hf : ArgsortOK f) {c : Csr F E} {n : ℕ}
    (hm : ∀ r : ℕ, r < n → c.indptr r ≤ c.indptr ((r : ℤ) + 1)) :
    ∀ m : ℕ, m ≤ n → ∀ r : ℕ, r < n →
      let en := (List.range m).foldl (sortRow f c.indptr) c.ent
      (r < m → (csrSlice en (c.indptr r) (c.indptr ((r : ℤ) + 1))).Perm (c.row r) ∧
        ((csrSlice en (c.indptr r) (c.indptr ((r : ℤ) + 1))).map CsrEnt.col).Pairwise (· ≤ ·)) ∧
      (m ≤ r → csrSlice en (c.indptr r) (c.indptr ((r : ℤ) + 1)) = c.row r) := by
  intro m
  induction m with
  | zero => intro _ r _; exact ⟨fun h => absurd h (by omega), fun _ => rfl⟩
  | succ m ih =>
    intro hmn r hr
    have IH := ih (by omega) r hr
    have IHm := ih (by omega) m (by omega)
    simp only [List.range_succ, List.foldl_append, List.foldl_cons, List.foldl_nil] at IH IHm ⊢
    generalize (List.range m).foldl (sortRow f c.indptr) c.ent = en at IH IHm ⊢
    obtain ⟨s1, s2, s3⟩ := sortRow_spec hf c.indptr en m
    have hother : r ≠ m → csrSlice (sortRow f c.indptr en m) (c.indptr r) (c.indptr ((r : ℤ) + 1)) =
        csrSlice en (c.indptr r) (c.indptr ((r : ℤ) + 1)) := by
      intro hne
      apply csrSlice_congr
      intro x h0 h1
      apply s1
      rintro ⟨h2, h3⟩
      rcases lt_or_gt_of_ne hne with h | h
      · have := ip_mono hm m (r + 1) (by omega) (by omega)
        push_cast at this; omega
      · have := ip_mono hm r (m + 1) (by omega) (by omega)
        push_cast at this; omega
    refine ⟨fun h => ?_, fun h => ?_⟩
    · by_cases he : r = m
      · subst he
        rw [IHm.2 (le_refl _)] at s2
        exact ⟨s2, s3⟩
      · rw [hother he]; exact IH.1 (by omega)
    · rw [hother (by omega)]; exact IH.2 (by omega)

end Verif

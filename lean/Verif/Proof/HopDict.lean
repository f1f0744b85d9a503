import Verif.Proof.Build
import Mathlib.Algebra.BigOperators.Group.List.Basic

/-! # Hopping terms added from the matrices of a `HopDict` -/

namespace Verif.Materials

open PrimCell

section
variable {F E Λ : Type*} [Field F] [DecidableEq F] [InvolutiveStar E]

/-- `add_hopping_dict` without diagonal terms is a series of `add_hopping`. -/
theorem runOk_dict (H : HashFns F E Λ) (s : PrimCell F E Λ) (hl : s.locked = false) (big : E → Bool)
    (l : List (Cell × ℤ × ℤ × E)) (hd : ∀ q ∈ l, HopOk s.numOrb ([q.1.1, q.1.2.1, q.1.2.2], q.2)) :
    runOk H s [.addHoppingDict big l] =
      runOk H s ((l.map fun q => ([q.1.1, q.1.2.1, q.1.2.2], q.2)).map fun q => .addHopping q.1 q.2.1 q.2.2.1 q.2.2.2) := by
  have hany : ¬ (l.any (fun t => t.1 = (0, 0, 0) ∧ t.2.1 = t.2.2.1 ∧ big t.2.2.2) = true) := by
    intro h
    obtain ⟨q, hq, h⟩ := List.any_eq_true.1 h
    simp only [decide_eq_true_eq] at h
    refine (hd q hq).2.2.2 ⟨?_, h.2.1⟩
    simp [cellOf, checkLen, h.1]
  have e : runOk H s [.addHoppingDict big l] = match addHoppings s l with
      | (s', .ok ()) => .ok s'
      | (_, .error e) => .error e := by
    rw [runOk, step, addHoppingDict, if_neg (by simp [hl]), if_neg hany]
    rfl
  rw [e]
  clear e hany
  induction l generalizing s with
  | nil => simp [addHoppings, runOk]
  | cons q l ih =>
    rw [List.map_cons, List.map_cons]
    obtain ⟨R, i, j, v⟩ := q
    rw [addHoppings, runOk, step]
    simp only
    have h0 := hd _ List.mem_cons_self
    cases hs : addHopping s [R.1, R.2.1, R.2.2] i j v with
    | mk a r =>
      cases r with
      | error e => rfl
      | ok u =>
        simp only
        have ha : a.locked = false ∧ a.numOrb = s.numOrb := by
          unfold addHopping at hs
          rw [if_neg (by simp [hl])] at hs
          split at hs
          · simp at hs
          · simp only [Prod.mk.injEq] at hs
            rw [← hs.1]
            exact ⟨hl, rfl⟩
        exact ih a ha.1 (fun q hq => by rw [ha.2]; exact hd q (List.mem_cons_of_mem _ hq))

theorem fold_agree (l : List (Cell × ℤ × ℤ × E)) (m : Cell → ℤ → ℤ → Option E) (T : Cell → ℤ → ℤ → Option E)
    (h : ∀ q ∈ l, T q.1 q.2.1 q.2.2.1 = some q.2.2.2 ∧ T (-q.1) q.2.2.1 q.2.1 = some (star q.2.2.2)) (R : Cell) (i j : ℤ) :
    (l.foldl (fun m q => HopMap.add m q.1 q.2.1 q.2.2.1 q.2.2.2) m R i j = T R i j) ∨
      (l.foldl (fun m q => HopMap.add m q.1 q.2.1 q.2.2.1 q.2.2.2) m R i j = m R i j ∧
        ∀ q ∈ l, ¬ (R = q.1 ∧ i = q.2.1 ∧ j = q.2.2.1) ∧ ¬ (R = -q.1 ∧ i = q.2.2.1 ∧ j = q.2.1)) := by
  induction l generalizing m with
  | nil => right; simp
  | cons q l ih =>
    rw [List.foldl_cons]
    rcases ih (HopMap.add m q.1 q.2.1 q.2.2.1 q.2.2.2) (fun q' hq' => h q' (List.mem_cons_of_mem _ hq')) with h1 | ⟨h1, h2⟩
    · left; exact h1
    · obtain ⟨t1, t2⟩ := h q List.mem_cons_self
      rw [h1, HopMap.add]
      split_ifs with a b
      · left; rw [a.1, a.2.1, a.2.2, t1]
      · left; rw [b.1, b.2.1, b.2.2, t2]
      · right
        refine ⟨rfl, ?_⟩
        intro q' hq'
        rcases List.mem_cons.1 hq' with rfl | hq'
        · exact ⟨a, b⟩
        · exact h2 q' hq'

end

/-- The hopping map described by blocks and their conjugates. -/
noncomputable def blockSum (bs : List (Cell × (ℕ → ℕ → ℂ))) (R : Cell) (i j : ℕ) : ℂ :=
  (bs.map fun b => (if R = b.1 then b.2 i j else 0) + (if R = -b.1 then star (b.2 j i) else 0)).sum

theorem mem_cooEntries {n : ℕ} {R : Cell} {M : ℕ → ℕ → ℂ} {q : Cell × ℤ × ℤ × ℂ} :
    q ∈ cooEntries n R M ↔ ∃ i j : ℕ, i < n ∧ j < n ∧ M i j ≠ 0 ∧ q = (R, (i : ℤ), (j : ℤ), M i j) := by
  simp only [cooEntries, List.mem_flatMap, List.mem_range, List.mem_map, List.mem_filter, decide_eq_true_eq]
  constructor
  · rintro ⟨i, hi, j, ⟨hj, hm⟩, rfl⟩
    exact ⟨i, j, hi, hj, hm, rfl⟩
  · rintro ⟨i, j, hi, hj, hm, rfl⟩
    exact ⟨i, hi, j, ⟨hj, hm⟩, rfl⟩

/-- The hopping map of blocks: the cells differ and are not opposite, blocks vanish outside `n × n`. -/
theorem fold_blocks (n : ℕ) (bs : List (Cell × (ℕ → ℕ → ℂ)))
    (hv : ∀ b ∈ bs, ∀ i j, i < n → j < n → b.2 i j ≠ 0 → blockSum bs b.1 i j = b.2 i j ∧ blockSum bs (-b.1) j i = star (b.2 i j))
    (R : Cell) (i j : ℤ) :
    (bs.flatMap fun b => cooEntries n b.1 b.2).foldl (fun m q => HopMap.add m q.1 q.2.1 q.2.2.1 q.2.2.2) (fun _ _ _ => none) R i j =
      open Classical in if 0 ≤ i ∧ i < n ∧ 0 ≤ j ∧ j < n ∧ blockSum bs R i.toNat j.toNat ≠ 0
        then some (blockSum bs R i.toNat j.toNat) else none := by
  classical
  rcases fold_agree (bs.flatMap fun b => cooEntries n b.1 b.2) (fun _ _ _ => none)
    (fun R i j => if 0 ≤ i ∧ i < n ∧ 0 ≤ j ∧ j < n ∧ blockSum bs R i.toNat j.toNat ≠ 0
      then some (blockSum bs R i.toNat j.toNat) else none) (by
      intro q hq
      obtain ⟨b, hb, hq⟩ := List.mem_flatMap.1 hq
      obtain ⟨i, j, hi, hj, hm, rfl⟩ := mem_cooEntries.1 hq
      obtain ⟨h1, h2⟩ := hv b hb i j hi hj hm
      simp only [Int.toNat_natCast, h1, h2]
      rw [if_pos ⟨by omega, by omega, by omega, by omega, hm⟩, if_pos ⟨by omega, by omega, by omega, by omega, by simpa using hm⟩]
      exact ⟨rfl, rfl⟩) R i j with h | ⟨h1, h2⟩
  · convert h
  · rw [h1]
    symm
    rw [if_neg]
    rintro ⟨a1, a2, a3, a4, a5⟩
    apply a5
    unfold blockSum
    apply List.sum_eq_zero
    intro x hx
    obtain ⟨b, hb, rfl⟩ := List.mem_map.1 hx
    have e1 : R = b.1 → b.2 i.toNat j.toNat = 0 := by
      intro e
      by_contra hne
      exact (h2 (b.1, (i.toNat : ℤ), (j.toNat : ℤ), _) (List.mem_flatMap.2 ⟨b, hb, mem_cooEntries.2
        ⟨_, _, by omega, by omega, hne, rfl⟩⟩)).1 ⟨e, by simp only; omega, by simp only; omega⟩
    have e2 : R = -b.1 → b.2 j.toNat i.toNat = 0 := by
      intro e
      by_contra hne
      exact (h2 (b.1, (j.toNat : ℤ), (i.toNat : ℤ), _) (List.mem_flatMap.2 ⟨b, hb, mem_cooEntries.2
        ⟨_, _, by omega, by omega, hne, rfl⟩⟩)).2 ⟨e, by simp only; omega, by simp only; omega⟩
    split_ifs with c1 c2 c2
    · rw [e1 c1, e2 c2]; simp
    · rw [e1 c1]; simp
    · rw [e2 c2]; simp
    · simp

end Verif.Materials

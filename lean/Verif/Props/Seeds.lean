import Verif.Model.Seeds
import Mathlib.Data.List.Dedup
import Mathlib.Data.List.Infix
import Mathlib.Data.Int.Interval
import Mathlib.Tactic.Linarith
import Mathlib.Tactic.Ring

/-! # Properties of `gen_seeds` (C67) -/

namespace Verif.Props

theorem genSeeds_aux (draws : List Draw) : ∀ s : List ℤ, s.Nodup →
    let r := draws.foldl (fun seeds d => if fromBytes d ∉ seeds then seeds ++ [fromBytes d] else seeds) s
    r.Nodup ∧ ∀ x, x ∈ r ↔ x ∈ s ∨ ∃ d ∈ draws, fromBytes d = x := by
  induction draws with
  | nil => intro s hs; simpa using hs
  | cons d ds ih =>
    intro s hs
    simp only [List.foldl_cons]
    by_cases h : fromBytes d ∈ s
    · simp only [h, not_true, if_false]
      obtain ⟨h1, h2⟩ := ih s hs
      refine ⟨h1, fun x => (h2 x).trans ?_⟩
      constructor
      · rintro (h | ⟨e, he, rfl⟩)
        · exact Or.inl h
        · exact Or.inr ⟨e, List.mem_cons_of_mem _ he, rfl⟩
      · rintro (h | ⟨e, he, rfl⟩)
        · exact Or.inl h
        · rcases List.mem_cons.1 he with rfl | he
          · exact Or.inl h
          · exact Or.inr ⟨e, he, rfl⟩
    · simp only [h, not_false_iff, if_true]
      obtain ⟨h1, h2⟩ := ih (s ++ [fromBytes d])
        (List.Nodup.append hs (List.nodup_singleton _) (by simpa using h))
      refine ⟨h1, fun x => (h2 x).trans ?_⟩
      rw [List.mem_append, List.mem_singleton]
      simp only [List.mem_cons]
      constructor
      · rintro ((h | rfl) | ⟨e, he, rfl⟩)
        · exact Or.inl h
        · exact Or.inr ⟨d, Or.inl rfl, rfl⟩
        · exact Or.inr ⟨e, Or.inr he, rfl⟩
      · rintro (h | ⟨e, rfl | he, rfl⟩)
        · exact Or.inl (Or.inl h)
        · exact Or.inl (Or.inr rfl)
        · exact Or.inr ⟨e, he, rfl⟩

theorem digits_lt (l : List (Fin 256)) : ∀ a : ℕ,
    l.foldl (fun (acc : ℕ) (b : Fin 256) => acc * 256 + b.val) a < (a + 1) * 256 ^ l.length := by
  induction l with
  | nil => intro a; simp
  | cons b l ih =>
    intro a
    rw [List.foldl_cons, List.length_cons, pow_succ]
    refine (ih _).trans_le ?_
    have hb : (b : ℕ) < 256 := b.isLt
    calc (a * 256 + (b : ℕ) + 1) * 256 ^ l.length ≤ ((a + 1) * 256) * 256 ^ l.length :=
          Nat.mul_le_mul_right _ (by omega)
      _ = (a + 1) * (256 ^ l.length * 256) := by ring

/-- **C67 (partial).**  Whatever the random source returns, the seeds are pairwise distinct 32-bit
integers, at most as many as requested, and exactly as many if the drawn integers are distinct.
Missing: the requested number when a value is drawn twice (`C67_too_few`), and non-negative seeds
(`C67_negative`). -/
theorem C67_seeds_partial (draws : List Draw) :
    (genSeeds draws).Nodup ∧ (genSeeds draws).length ≤ draws.length ∧
    (genSeeds draws).length = ((draws.map fromBytes).toFinset).card ∧
    ((draws.map fromBytes).Nodup → (genSeeds draws).length = draws.length) ∧
    (∀ x, x ∈ genSeeds draws ↔ ∃ d ∈ draws, fromBytes d = x) ∧
    ∀ x ∈ genSeeds draws, -2 ^ 31 ≤ x ∧ x < 2 ^ 31 := by
  obtain ⟨h1, h2⟩ := genSeeds_aux draws [] List.nodup_nil
  replace h1 : (genSeeds draws).Nodup := h1
  have hmem : ∀ x, x ∈ genSeeds draws ↔ ∃ d ∈ draws, fromBytes d = x := fun x => by
    have := h2 x
    rwa [or_iff_right List.not_mem_nil] at this
  have hfin : (genSeeds draws).toFinset = (draws.map fromBytes).toFinset := by
    ext x
    simp only [List.mem_toFinset, hmem, List.mem_map]
  have hcard : (genSeeds draws).length = ((draws.map fromBytes).toFinset).card := by
    rw [← hfin, List.toFinset_card_of_nodup h1]
  refine ⟨h1, ?_, hcard, ?_, hmem, ?_⟩
  · rw [hcard]
    simpa using List.toFinset_card_le (draws.map fromBytes)
  · intro hn
    rw [hcard, List.toFinset_card_of_nodup hn, List.length_map]
  · intro x hx
    obtain ⟨d, -, rfl⟩ := (hmem x).1 hx
    unfold fromBytes
    have hlen := d.len
    set digits := if d.big then d.bytes else d.bytes.reverse with hd
    have hdl : digits.length = d.bytes.length := by
      rw [hd]; split <;> simp
    have hlt := digits_lt digits 0
    rw [hdl, zero_add, one_mul] at hlt
    set v := digits.foldl (fun (acc : ℕ) (b : Fin 256) => acc * 256 + b.val) 0
    obtain ⟨k, hk⟩ : ∃ k, d.bytes.length = k := ⟨_, rfl⟩
    rw [hk] at hlt hlen ⊢
    obtain ⟨a, b⟩ := hlen
    have h4 : k = 1 ∨ k = 2 ∨ k = 3 ∨ k = 4 := by omega
    rcases h4 with rfl | rfl | rfl | rfl <;> norm_num at hlt ⊢ <;> split <;> omega

/-- One byte. -/
def byte (b : Fin 256) : Draw := ⟨[b], true, by simp⟩

example : ([byte 3, byte 200, ⟨[1, 2], false, by simp⟩].map fromBytes).Nodup ∧
    genSeeds [byte 3, byte 200, ⟨[1, 2], false, by simp⟩] = [3, -56, 513] := by decide +kernel

/-- **C67 fails**: for every number of seeds greater than one, the random source can be such that
only one seed is returned. -/
theorem C67_too_few (n : ℕ) (hn : 2 ≤ n) :
    ∃ draws : List Draw, draws.length = n ∧ (genSeeds draws).length < n := by
  refine ⟨List.replicate n (byte 7), by simp, ?_⟩
  obtain ⟨-, -, h, -⟩ := C67_seeds_partial (List.replicate n (byte 7))
  rw [h, List.map_replicate, List.toFinset_replicate_of_ne_zero (by omega)]
  simpa using by omega

/-- **C67 fails for large requests**: more than `2 ^ 32` seeds are never returned. -/
theorem C67_never_more (draws : List Draw) : (genSeeds draws).length ≤ 2 ^ 32 := by
  obtain ⟨h1, -, -, -, -, h2⟩ := C67_seeds_partial draws
  have hsub : (genSeeds draws).toFinset ⊆ Finset.Ico (-2 ^ 31 : ℤ) (2 ^ 31) := by
    intro x hx
    rw [List.mem_toFinset] at hx
    exact Finset.mem_Ico.2 (h2 x hx)
  have := Finset.card_le_card hsub
  rw [List.toFinset_card_of_nodup h1, Int.card_Ico] at this
  norm_num at this ⊢
  exact this

/-- **C67 fails**: seeds can be negative, for every number of seeds. -/
theorem C67_negative (n : ℕ) (hn : 1 ≤ n) :
    ∃ draws : List Draw, draws.length = n ∧ ∃ x ∈ genSeeds draws, x < 0 := by
  refine ⟨List.replicate n (byte 200), by simp, fromBytes (byte 200), ?_, by decide⟩
  obtain ⟨-, -, -, -, h, -⟩ := C67_seeds_partial (List.replicate n (byte 200))
  exact (h _).2 ⟨byte 200, List.mem_replicate.2 ⟨by omega, rfl⟩, rfl⟩

end Verif.Props

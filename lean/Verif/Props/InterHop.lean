import Verif.Proof.InterHop
import Verif.Props.Hopping

/-! # Property C75: `InterHopping` is a plain map -/

set_option linter.unusedSectionVars false

namespace Verif.Props

open InterHop (run step)

variable {E : Type*} [Star E]

/-- The cell index denoted by the argument `rn`: three integers, or two with third component zero. -/
inductive Denotes : List ℤ → Cell → Prop
  | three (a b c : ℤ) : Denotes [a, b, c] (a, b, c)
  | two (a b : ℤ) : Denotes [a, b] (a, b, 0)

/-- What one call may do to the map seen through `get_hopping`. -/
def InterStep (locked : Bool) (m : HopMap E) : InterHop.Op E → HopMap E → Prop
  | .add rn i j e, m' =>
    (∀ R, locked = false → Denotes rn R →
      ∀ R' i' j', m' R' i' j' = if R' = R ∧ i' = i ∧ j' = j then some e else m R' i' j') ∧
    ((locked = true ∨ ∀ R, ¬ Denotes rn R) → m' = m)
  | .remove rn i j, m' =>
    (∀ R, Denotes rn R →
      ∀ R' i' j', m' R' i' j' = if R' = R ∧ i' = i ∧ j' = j then none else m R' i' j') ∧
    ((∀ R, ¬ Denotes rn R) → m' = m)
  | .removeRn rn, m' =>
    (∀ R, Denotes rn R → ∀ R' i' j', m' R' i' j' = if R' = R then none else m R' i' j') ∧
    ((∀ R, ¬ Denotes rn R) → m' = m)
  | .removeOrbitals L, m' => HopMap.IsRemoval m L m'
  | .purge, m' => m' = m

/-- The map seen through `get_hopping`. -/
def seen (s : InterHop E) : HopMap E := fun R i j => s.get [R.1, R.2.1, R.2.2] i j

omit [Star E] in
theorem checkLen_denotes {rn : List ℤ} {R : Cell} : checkLen 0 rn = some R ↔ Denotes rn R := by
  constructor
  · intro h
    rcases rn with _ | ⟨a, _ | ⟨b, _ | ⟨c, _ | ⟨d, l⟩⟩⟩⟩ <;> simp [checkLen] at h
    · subst h; exact .two a b
    · subst h; exact .three a b c
  · rintro (⟨a, b, c⟩ | ⟨a, b⟩) <;> rfl

/-- **C75.** For every history of calls on an `InterHopping` object, locked or not, starting from the empty
one, each further call does to the map `(R,i,j) ↦ energy` exactly what a dictionary would do: adding sets the
named term and no conjugate partner, removing clears the named term only, `remove_rn` clears the terms of that
`R` and not of `-R`, `remove_orbitals` deletes and renumbers, purging changes nothing; a locked object ignores
`add_hopping`.  The lock flag is never changed by these calls. -/
theorem C75_plain_map (l : Bool) (ops : List (InterHop.Op E)) (op : InterHop.Op E) :
    InterStep l (seen (run ⟨l, []⟩ ops)) op (seen (run ⟨l, []⟩ (ops ++ [op]))) ∧
    (run (⟨l, []⟩ : InterHop E) ops).locked = l := by
  have hlock : ∀ (s : InterHop E) (op : InterHop.Op E), (step s op).1.locked = s.locked := by
    intro s op
    cases op with
    | add rn i j e =>
      simp only [step, InterHop.add]; split_ifs
      · rfl
      · split <;> rfl
    | remove rn i j =>
      simp only [step, InterHop.remove]
      split
      · rfl
      · split
        · rfl
        · split <;> rfl
    | removeOrbitals L => rfl
    | removeRn rn => simp only [step, InterHop.removeRn]; split <;> rfl
    | purge => rfl
  have hl : (run (⟨l, []⟩ : InterHop E) ops).locked = l := by
    have : ∀ (ops : List (InterHop.Op E)) (s : InterHop E), (run s ops).locked = s.locked := by
      intro ops
      induction ops with
      | nil => intro s; rfl
      | cons op ops ih => intro s; exact (ih _).trans (hlock s op)
    exact this ops _
  refine ⟨?_, hl⟩
  have hi : InterHop.IInv (run (⟨l, []⟩ : InterHop E) ops).hops := InterHop.IInv_run InterHop.IInv_nil ops
  have hsnoc : run (⟨l, []⟩ : InterHop E) (ops ++ [op]) = (step (run ⟨l, []⟩ ops) op).1 := by
    simp [run, List.foldl_append]
  rw [hsnoc]
  generalize run (⟨l, []⟩ : InterHop E) ops = s at *
  have none_of : ∀ {rn : List ℤ} {i j : ℤ}, (∀ R, ¬ Denotes rn R) → InterHop.normKeys rn i j = none := by
    intro rn i j h
    unfold InterHop.normKeys
    cases hc : checkLen 0 rn with
    | none => rfl
    | some R => exact absurd (checkLen_denotes.1 hc) (h R)
  have some_of : ∀ {rn : List ℤ} {R : Cell} {i j : ℤ}, Denotes rn R →
      InterHop.normKeys rn i j = some (R, (i, j)) := by
    intro rn R i j h
    unfold InterHop.normKeys
    rw [checkLen_denotes.2 h]; rfl
  have hseen : ∀ (t : InterHop E) R i j, seen t R i j = IntraHop.look t.hops R (i, j) := fun _ _ _ _ => rfl
  cases op with
  | add rn i j e =>
    constructor
    · intro R hu hd R' i' j'
      rw [hseen, hseen]
      simp only [step, InterHop.add]
      rw [if_neg (by rw [hl, hu]; simp), some_of hd]
      simp only
      rw [InterHop.look_set]
      simp only [Prod.mk.injEq]
    · intro h
      simp only [step, InterHop.add]
      rcases h with h | h
      · rw [if_pos (by rw [hl, h])]
      · rw [none_of h]; split_ifs <;> rfl
  | remove rn i j =>
    constructor
    · intro R hd R' i' j'
      rw [hseen, hseen]
      simp only [step, InterHop.remove, some_of hd]
      cases hg : PyDict.get? s.hops R with
      | none =>
        simp only
        split_ifs with hc
        · obtain ⟨rfl, rfl, rfl⟩ := hc
          rw [InterHop.look_eq, hg]; rfl
        · rfl
      | some d =>
        simp only
        cases hg2 : PyDict.get? d (i, j) with
        | none =>
          simp only
          split_ifs with hc
          · obtain ⟨rfl, rfl, rfl⟩ := hc
            rw [InterHop.look_eq, hg]; exact hg2
          · rfl
        | some v =>
          simp only
          rw [InterHop.look_erase hi hg]
          simp only [Prod.mk.injEq]
    · intro h
      simp only [step, InterHop.remove, none_of h]
  | removeOrbitals L =>
    constructor
    · intro R i j hiL hjL
      rw [hseen, hseen]
      apply Option.ext
      intro e
      simp only [step]
      rw [InterHop.look_removeOrbitals hi]
      constructor
      · rintro ⟨i', j', h1, h2, h3, h4⟩
        simp only [Prod.mk.injEq] at h3
        rw [HopMap.rank_inj hiL h1 h3.1, HopMap.rank_inj hjL h2 h3.2]
        exact h4
      · intro h; exact ⟨i, j, hiL, hjL, rfl, h⟩
    · intro R a b hne
      rw [hseen] at hne
      obtain ⟨e, he⟩ := Option.ne_none_iff_exists'.1 hne
      obtain ⟨i, j, h1, h2, h3, -⟩ := (InterHop.look_removeOrbitals hi L R (a, b) e).1 he
      simp only [Prod.mk.injEq] at h3
      exact ⟨i, j, h1, h2, h3.1, h3.2⟩
  | removeRn rn =>
    constructor
    · intro R hd R' i' j'
      rw [hseen, hseen]
      simp only [step, InterHop.removeRn, some_of hd]
      rw [InterHop.look_eq, InterHop.look_eq, PyDict.get?_erase hi.wf]
      split_ifs <;> rfl
    · intro h
      simp only [step, InterHop.removeRn, none_of h]
  | purge =>
    funext R i j
    rw [hseen, hseen]
    simp only [step, InterHop.purge]
    exact InterHop.look_purge hi R (i, j)

/-- A concrete case: the conjugate partner of a term is a different entry, and removing one keeps the other. -/
example : seen (run ⟨false, []⟩ [.add [1, 0] 0 2 (⟨1, 1⟩ : GInt), .add [-1, 0, 0] 2 0 ⟨3, 0⟩,
      .remove [1, 0, 0] 0 2]) (1, 0, 0) 0 2 = none ∧
    seen (run ⟨false, []⟩ [.add [1, 0] 0 2 (⟨1, 1⟩ : GInt), .add [-1, 0, 0] 2 0 ⟨3, 0⟩,
      .remove [1, 0, 0] 0 2]) (-1, 0, 0) 2 0 = some ⟨3, 0⟩ := by
  constructor <;> rfl

end Verif.Props

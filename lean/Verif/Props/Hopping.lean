import Verif.Proof.Hopping

/-!
# Properties of the hopping container (C01, C02, C03)
-/

namespace Verif.Props

open IntraHop

variable {E : Type*} [InvolutiveStar E]

/-- **C01 (refinement).** Every call made in any history has exactly the abstract
effect of `HopMap.Step` on what `get_hopping` shows. -/
theorem C01_refines_conjugate_map (ops : List (Op E)) (op : Op E) :
    HopMap.Step (get (run ops)) op (get (run (ops ++ [op]))) := by
  rw [run, run, List.foldl_append]
  exact get_step (Inv_run ops) op

/-- **C01 (consistency).** After any history `(R,i,j)` and `(-R,j,i)` are both present with
conjugate energies or both absent. -/
theorem C01_conjugate_symmetric (ops : List (Op E)) (R : Cell) (i j : ℤ)
    (hnd : ¬ (R = 0 ∧ i = j)) :
    get (run ops) (-R) j i = (get (run ops) R i j).map star :=
  get_conjSymm _ R i j hnd

/-- **C01 (last write wins).** After `add(R,i,j,e)`, both spellings return the new
energy, whatever was written before under either spelling, and every other entry is
unchanged. -/
theorem C01_last_write_wins (ops : List (Op E)) (R : Cell) (i j : ℤ) (e : E)
    (hnd : ¬ (R = 0 ∧ i = j)) :
    get (run (ops ++ [.add R i j e])) R i j = some e ∧
    get (run (ops ++ [.add R i j e])) (-R) j i = some (star e) ∧
    ∀ R' i' j', ¬ (R' = R ∧ i' = i ∧ j' = j) → ¬ (R' = -R ∧ i' = j ∧ j' = i) →
      get (run (ops ++ [.add R i j e])) R' i' j' = get (run ops) R' i' j' := by
  have h : get (run (ops ++ [.add R i j e])) = HopMap.add (get (run ops)) R i j e :=
    C01_refines_conjugate_map ops (.add R i j e)
  have h1 : get (run (ops ++ [.add R i j e])) R i j = some e := by
    rw [h]; simp [HopMap.add]
  refine ⟨h1, ?_, ?_⟩
  · rw [C01_conjugate_symmetric _ R i j hnd, h1]; rfl
  · intro R' i' j' ha hb
    rw [h]; simp only [HopMap.add, ha, hb, if_false]

/-- `remove_hopping` reports `True` exactly when the term was present, under either
spelling. -/
theorem C01_remove_status (ops : List (Op E)) (R : Cell) (i j : ℤ) :
    (remove (run ops) R i j).2 = true ↔ get (run ops) R i j ≠ none := by
  unfold IntraHop.remove IntraHop.get
  simp only
  cases hg : PyDict.get? (run ops) (normKeys R i j).1 with
  | none => simp
  | some d => cases hp : PyDict.get? d (normKeys R i j).2.1 <;> simp [hp]

/-- Abstract effect of a history: a run of the abstract machine. -/
inductive HopMap.Trace : List (Op E) → HopMap E → Prop
  | nil : Trace [] (fun _ _ _ => none)
  | snoc {ops m m'} (op : Op E) : Trace ops m → HopMap.Step m op m' → Trace (ops ++ [op]) m'

/-- **C01 (histories).** What `get_hopping` shows after a history is a run of the abstract
conjugate-symmetric map over the same history. -/
theorem C01_trace (ops : List (Op E)) : HopMap.Trace ops (get (run ops)) := by
  induction ops using List.reverseRecOn with
  | nil => exact HopMap.Trace.nil
  | append_singleton ops op ih =>
    exact HopMap.Trace.snoc op ih (C01_refines_conjugate_map ops op)

/-- **C02.** Every present hopping is exported, once: a term of the export is a
present hopping with that energy; for every present hopping exactly one of the two
conjugate spellings is in the export; no `(R,i,j)` is repeated. -/
theorem C02_export_exact (ops : List (Op E)) :
    (∀ R i j e, (R, (i, j), e) ∈ toList (run ops) → get (run ops) R i j = some e) ∧
    (∀ R i j e, get (run ops) R i j = some e → ¬ (R = 0 ∧ i = j) →
      Xor ((R, (i, j), e) ∈ toList (run ops)) ((-R, (j, i), star e) ∈ toList (run ops))) ∧
    ((toList (run ops)).map (fun t => (t.1, t.2.1))).Nodup := by
  have hi := Inv_run ops
  refine ⟨?_, ?_, toList_keys_nodup hi⟩
  · intro R i j e hm
    have hl := (mem_toList hi R (i, j) e).1 hm
    have hn := look_norm hi hl
    rw [get_eq_look]
    simpa [hn] using hl
  · intro R i j e hg hnd
    rw [mem_toList hi, mem_toList hi]
    rw [get_eq_look] at hg
    cases hc : checkConj R i j
    · simp only [hc, Bool.false_eq_true, if_false] at hg
      refine Or.inl ⟨hg, fun h2 => ?_⟩
      have := look_norm hi h2
      rw [checkConj_swap hnd, hc] at this
      exact absurd this (by simp)
    · simp only [hc, if_true] at hg
      obtain ⟨e', he', rfl⟩ := Option.map_eq_some_iff.1 hg
      refine Or.inr ⟨by rw [star_star]; exact he', fun h2 => ?_⟩
      have := look_norm hi h2
      rw [hc] at this
      exact absurd this (by simp)

/-- **C02.** A consumer which adds the conjugate of every exported term counts nothing
twice: the export never contains a term together with its conjugate. -/
theorem C02_no_conjugate_pair (ops : List (Op E)) (R : Cell) (i j : ℤ) (e e' : E)
    (hnd : ¬ (R = 0 ∧ i = j))
    (h : (R, (i, j), e) ∈ toList (run ops)) : (-R, (j, i), e') ∉ toList (run ops) := by
  have hi := Inv_run ops
  intro h2
  have h1 := look_norm hi ((mem_toList hi _ _ _).1 h)
  have h3 := look_norm hi ((mem_toList hi _ _ _).1 h2)
  simp only at h1 h3
  rw [checkConj_swap hnd, h1] at h3
  exact absurd h3 (by simp)

/-- **C02.** `num_hop` is the length of the export. -/
theorem C02_num_hop (ops : List (Op E)) : numHop (run ops) = (toList (run ops)).length :=
  (length_toList _).symm

/-- **C03.** `remove_orbitals(L)` deletes precisely the hoppings touching `L` and renumbers the
others by `x ↦ x - #{r ∈ L | r < x}`, keeping energies; the renumbering is injective
(indeed strictly monotone) on survivors so nothing is merged. -/
theorem C03_remove_orbitals (ops : List (Op E)) (L : List ℤ) :
    (∀ R i j, i ∉ L → j ∉ L →
      get (run (ops ++ [.removeOrbitals L])) R
        (i - (L.toFinset.filter (· < i)).card) (j - (L.toFinset.filter (· < j)).card)
        = get (run ops) R i j) ∧
    (∀ R a b, get (run (ops ++ [.removeOrbitals L])) R a b ≠ none →
      ∃ i j, i ∉ L ∧ j ∉ L ∧ a = i - (L.toFinset.filter (· < i)).card ∧
        b = j - (L.toFinset.filter (· < j)).card) ∧
    (∀ i j, i ∉ L → j ∉ L → i < j →
      i - ((L.toFinset.filter (· < i)).card : ℤ) < j - ((L.toFinset.filter (· < j)).card : ℤ)) := by
  have h : HopMap.IsRemoval (get (run ops)) L (get (run (ops ++ [.removeOrbitals L]))) :=
    C01_refines_conjugate_map ops (.removeOrbitals L)
  exact ⟨h.1, h.2, fun i j hi _ hij => HopMap.rank_lt_rank hi hij⟩

/-! ### Non-vacuity: a concrete history over Gaussian-like energies

Energies are pairs `(re, im)`; `star` is complex conjugation. -/

/-- Gaussian integers `(re, im)`, used to run concrete examples. -/
structure GInt where
  re : ℤ
  im : ℤ
deriving DecidableEq, Repr

instance : InvolutiveStar GInt where
  star z := ⟨z.re, -z.im⟩
  star_involutive z := by cases z; simp

/-- A history using both spellings, a removal and a renumbering. -/
def exampleOps : List (Op GInt) :=
  [.add (1, 0, 0) 2 0 ⟨3, 4⟩, .add (-1, 0, 0) 0 2 ⟨5, 6⟩, .add (0, 0, 0) 3 1 ⟨0, 1⟩,
   .add (0, 1, 0) 0 0 ⟨7, 0⟩, .remove (0, -1, 0) 0 0, .removeOrbitals [1, 1]]

example : get (run exampleOps) (1, 0, 0) 1 0 = some ⟨5, -6⟩ := by decide
example : get (run exampleOps) (-1, 0, 0) 0 1 = some ⟨5, 6⟩ := by decide
example : toList (run exampleOps) = [((1, 0, 0), (1, 0), ⟨5, -6⟩)] := by decide
example : numHop (run (exampleOps.take 4)) = 3 := by decide

end Verif.Props

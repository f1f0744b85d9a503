import Verif.Model.InterHop
import Verif.Proof.Hopping

/-! # `InterHopping` is a plain map -/

set_option linter.unusedSectionVars false

namespace Verif.InterHop

open IntraHop (look)

variable {E : Type*}

/-- Dictionaries have unique keys. -/
structure IInv (h : PyDict Cell (PyDict Pair E)) : Prop where
  wf : PyDict.WF h
  wfd : ∀ R d, (R, d) ∈ h → PyDict.WF d

theorem look_eq (h : PyDict Cell (PyDict Pair E)) (R : Cell) (p : Pair) :
    look h R p = (PyDict.get? h R).bind (fun d => PyDict.get? d p) := rfl

theorem get_eq (s : InterHop E) (R : Cell) (i j : ℤ) :
    s.get [R.1, R.2.1, R.2.2] i j = look s.hops R (i, j) := rfl

theorem look_iff_mem {h : PyDict Cell (PyDict Pair E)} (hi : IInv h) (R : Cell) (p : Pair) (e : E) :
    look h R p = some e ↔ ∃ d, (R, d) ∈ h ∧ (p, e) ∈ d := by
  rw [look_eq]
  constructor
  · intro hl
    cases hd : PyDict.get? h R with
    | none => simp [hd] at hl
    | some d =>
      simp only [hd, Option.bind_some] at hl
      exact ⟨d, PyDict.mem_of_get? hd, PyDict.mem_of_get? hl⟩
  · rintro ⟨d, h1, h2⟩
    rw [(PyDict.mem_iff_get? hi.wf R d).1 h1]
    exact (PyDict.mem_iff_get? (hi.wfd R d h1) p e).1 h2

theorem look_set (h : PyDict Cell (PyDict Pair E)) (R R' : Cell) (p p' : Pair) (e : E) :
    look (PyDict.set h R (PyDict.set ((PyDict.get? h R).getD []) p e)) R' p' =
      if R' = R ∧ p' = p then some e else look h R' p' := by
  rw [look_eq, look_eq, PyDict.get?_set]
  by_cases h1 : R' = R
  · subst h1
    simp only [if_true, Option.bind_some, PyDict.get?_set, true_and]
    by_cases h2 : p' = p
    · simp [h2]
    · simp only [h2, if_false]
      cases PyDict.get? h R' <;> simp
  · simp [h1]

theorem IInv_nil : IInv ([] : PyDict Cell (PyDict Pair E)) := ⟨PyDict.WF_nil, by simp⟩

theorem IInv_set {h : PyDict Cell (PyDict Pair E)} (hi : IInv h) (R : Cell) {d : PyDict Pair E}
    (hd : PyDict.WF d) : IInv (PyDict.set h R d) := by
  refine ⟨PyDict.WF_set hi.wf R d, ?_⟩
  intro R' d' hm
  rcases (IntraHop.mem_set_iff hi.wf R d R' d').1 hm with ⟨-, rfl⟩ | ⟨-, h2⟩
  · exact hd
  · exact hi.wfd R' d' h2

theorem WF_getD {h : PyDict Cell (PyDict Pair E)} (hi : IInv h) (R : Cell) :
    PyDict.WF ((PyDict.get? h R).getD []) := by
  cases hg : PyDict.get? h R with
  | none => exact PyDict.WF_nil
  | some d => exact hi.wfd R d (PyDict.mem_of_get? hg)

theorem IInv_step {s : InterHop E} (hi : IInv s.hops) (op : Op E) : IInv (step s op).1.hops := by
  cases op with
  | add rn i j e =>
    simp only [step, add]
    split_ifs
    · exact hi
    · split
      · exact hi
      · exact IInv_set hi _ (PyDict.WF_set (WF_getD hi _) _ _)
  | remove rn i j =>
    simp only [step, remove]
    split
    · exact hi
    · split
      · exact hi
      · rename_i d hd
        split
        · exact hi
        · exact IInv_set hi _ (PyDict.WF_erase (hi.wfd _ d (PyDict.mem_of_get? hd)) _)
  | removeOrbitals L =>
    simp only [step, removeOrbitals]
    refine ⟨?_, ?_⟩
    · have : PyDict.keys (s.hops.map (fun q => (q.1, PyDict.remap (IntraHop.remapPair (sortedSet L)) q.2))) =
        PyDict.keys s.hops := by
        unfold PyDict.keys
        rw [List.map_map]; rfl
      rw [PyDict.WF, this]; exact hi.wf
    · intro R d hm
      obtain ⟨⟨R', d₀⟩, h1, h2⟩ := List.mem_map.1 hm
      obtain ⟨rfl, rfl⟩ := Prod.mk.inj h2
      exact PyDict.WF_remap _ (hi.wfd R' d₀ h1) (fun p _ q _ a => IntraHop.remapPair_inj L)
  | removeRn rn =>
    simp only [step, removeRn]
    split
    · exact hi
    · exact ⟨PyDict.WF_erase hi.wf _, fun R d hm => hi.wfd R d (PyDict.mem_of_mem_erase hm)⟩
  | purge =>
    simp only [step, purge]
    exact ⟨PyDict.WF_filter hi.wf _, fun R d hm => hi.wfd R d (List.mem_of_mem_filter hm)⟩

theorem IInv_run {s : InterHop E} (hi : IInv s.hops) (ops : List (Op E)) : IInv (run s ops).hops := by
  induction ops generalizing s with
  | nil => exact hi
  | cons op ops ih => exact ih (IInv_step hi op)

theorem look_erase {h : PyDict Cell (PyDict Pair E)} (hi : IInv h) {R : Cell} {d : PyDict Pair E}
    (hd : PyDict.get? h R = some d) (p : Pair) (R' : Cell) (p' : Pair) :
    look (PyDict.set h R (PyDict.erase d p)) R' p' =
      if R' = R ∧ p' = p then none else look h R' p' := by
  rw [look_eq, look_eq, PyDict.get?_set]
  by_cases h1 : R' = R
  · subst h1
    simp only [if_true, Option.bind_some, true_and, hd]
    rw [PyDict.get?_erase (hi.wfd R' d (PyDict.mem_of_get? hd))]
  · simp [h1]

theorem look_removeOrbitals {s : InterHop E} (hi : IInv s.hops) (L : List ℤ) (R : Cell) (q : Pair) (e : E) :
    look (removeOrbitals s L).1.hops R q = some e ↔
      ∃ i j, i ∉ L ∧ j ∉ L ∧ q = (HopMap.rank L i, HopMap.rank L j) ∧ look s.hops R (i, j) = some e := by
  have hi' : IInv (removeOrbitals s L).1.hops := IInv_step hi (.removeOrbitals L)
  rw [look_iff_mem hi']
  have hmem : ∀ d, (R, d) ∈ (removeOrbitals s L).1.hops ↔ ∃ d₀, (R, d₀) ∈ s.hops ∧
      d = PyDict.remap (IntraHop.remapPair (sortedSet L)) d₀ := by
    intro d
    simp only [removeOrbitals]
    rw [List.mem_map]
    constructor
    · rintro ⟨⟨R', d₀⟩, hm, he⟩
      obtain ⟨h1, h2⟩ := Prod.mk.inj he
      exact ⟨d₀, by rw [← h1]; exact hm, h2.symm⟩
    · rintro ⟨d₀, hm, rfl⟩; exact ⟨(R, d₀), hm, rfl⟩
  constructor
  · rintro ⟨d, hd, hp⟩
    obtain ⟨d₀, hd₀, rfl⟩ := (hmem d).1 hd
    obtain ⟨k, hk, hkm⟩ := (PyDict.mem_remap _ (hi.wfd R d₀ hd₀)
      (fun p _ q _ a => IntraHop.remapPair_inj L) q e).1 hp
    rw [IntraHop.remapPair_eq] at hk
    by_cases h1 : k.1 ∈ L ∨ k.2 ∈ L
    · simp [h1] at hk
    · simp only [h1, if_false, Option.some.injEq] at hk
      push Not at h1
      exact ⟨k.1, k.2, h1.1, h1.2, hk.symm, (look_iff_mem hi R k e).2 ⟨d₀, hd₀, hkm⟩⟩
  · rintro ⟨i, j, hiL, hjL, rfl, hl⟩
    obtain ⟨d₀, hd₀, hkm⟩ := (look_iff_mem hi R (i, j) e).1 hl
    refine ⟨_, (hmem _).2 ⟨d₀, hd₀, rfl⟩, ?_⟩
    refine (PyDict.mem_remap _ (hi.wfd R d₀ hd₀)
      (fun p _ q _ a => IntraHop.remapPair_inj L) _ e).2 ⟨(i, j), ?_, hkm⟩
    rw [IntraHop.remapPair_eq]; simp [hiL, hjL]

theorem look_purge {h : PyDict Cell (PyDict Pair E)} (hi : IInv h) (R : Cell) (p : Pair) :
    look (h.filter (fun q => !q.2.isEmpty)) R p = look h R p := by
  have hi' : IInv (h.filter (fun q => !q.2.isEmpty)) :=
    ⟨PyDict.WF_filter hi.wf _, fun R d hm => hi.wfd R d (List.mem_of_mem_filter hm)⟩
  apply Option.ext
  intro e
  rw [look_iff_mem hi', look_iff_mem hi]
  constructor
  · rintro ⟨d, h1, h2⟩; exact ⟨d, List.mem_of_mem_filter h1, h2⟩
  · rintro ⟨d, h1, h2⟩
    refine ⟨d, List.mem_filter.2 ⟨h1, ?_⟩, h2⟩
    cases d with
    | nil => simp at h2
    | cons a d => rfl

end Verif.InterHop

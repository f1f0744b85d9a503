import Verif.Props.Order
import Verif.Proof.Decoupled

/-! # Terms of samples of several parts -/

namespace Verif

open SCell Sample Verif.Props

variable {F E Λ : Type*} [Field F] [DecidableEq F] [CommRing E] [StarRing E]

/-- The terms of a supercell, if they can be computed. -/
def cellTerms (H : HashFns F E Λ) (HS : SCHash F E Λ) (hp : SCHeap F E Λ) (id : ℕ) : List (SCHop F E) :=
  (((getHop H HS (hp id)).2).toOption.map HopOut.terms).getD []

/-- The positions used for the terms of an inter-hopping. -/
def interPos (H : HashFns F E Λ) (HS : SCHash F E Λ) (hp : SCHeap F E Λ) (h : InterSC E) : List (Vec3 F) × List (Vec3 F) :=
  (((getOrbPos H HS (hp h.bra)).2.toOption).getD [], ((getOrbPos H HS (hp h.ket)).2.toOption).getD [])

/-- The terms of a sample, with the blocks of supercells given by name. -/
def namedTerms (H : HashFns F E Λ) (HS : SCHash F E Λ) (hp : SCHeap F E Λ) (cells : List ℕ) (inters : List (InterSC E)) (st : ℕ → ℤ) :
    List (SCHop F E) :=
  (cells.flatMap fun id => (cellTerms H HS hp id).map fun x => (⟨st id + x.i, st id + x.j, x.v, x.dr⟩ : SCHop F E)) ++
    inters.flatMap fun h => h.hop.toList.map fun t =>
      (⟨st h.bra + t.2.1.1, st h.ket + t.2.1.2, t.2.2, interBond (hp h.ket) (interPos H HS hp h).1 (interPos H HS hp h).2 t⟩ : SCHop F E)

theorem sample_terms {H : HashFns F E Λ} {HS : SCHash F E Λ} {hp hp' : SCHeap F E Λ} {s s' : Sample F E} (hd : s.cells.Nodup)
    (hc : ∀ id ∈ s.cells, ReachCell H HS (hp id)) (hi : ∀ h ∈ s.inters, h.bra ∈ s.cells ∧ h.ket ∈ s.cells ∧ InterInRange hp h)
    (h0 : s.hop = none) (h : initHop H HS hp s false = (hp', s', .ok ())) :
    ∃ o, s'.hop = some o ∧ o.terms = namedTerms H HS hp s.cells s.inters (off (fun id => (hp id).numOrbSc) s.cells) ∧
      TermsInRange (s.numOrb hp).toNat o.terms := by
  obtain ⟨o, outs, pss, rfl, f1, f2, ho, -, hr⟩ := C27_blocks_partial hc hi (Or.inr h0) h
  refine ⟨o, rfl, ?_, hr⟩
  rw [ho]
  unfold namedTerms
  have houts : outs.map HopOut.terms = s.cells.map (cellTerms H HS hp) := by
    clear ho hr h hd hc hi h0 f2
    generalize s.cells = l at f1 ⊢
    induction f1 with
    | nil => rfl
    | cons hab _ ih =>
      rw [List.map_cons, List.map_cons, ih]
      congr 1
      unfold cellTerms
      rw [hab]; rfl
  have hpss : pss = s.inters.map (interPos H HS hp) := by
    clear ho hr h hd hc hi h0 f1 houts
    generalize s.inters = l at f2 ⊢
    induction f2 with
    | nil => rfl
    | cons hab _ ih =>
      rw [List.map_cons, ← ih]
      congr 1
      unfold interPos
      rw [hab.1, hab.2]; rfl
  have hzip : ∀ (inters : List (InterSC E)), inters.zip (inters.map (interPos H HS hp)) = inters.map fun h => (h, interPos H HS hp h) := by
    intro l
    induction l with
    | nil => rfl
    | cons a l ih => simp [ih]
  congr 1
  · have e1 : (outs.zipIdx.flatMap fun q => q.1.terms.map fun x =>
          (⟨blockStart hp s.cells q.2 + x.i, blockStart hp s.cells q.2 + x.j, x.v, x.dr⟩ : SCHop F E)) =
        ((outs.map HopOut.terms).zipIdx.flatMap fun q => q.1.map fun x =>
          (⟨blockStart hp s.cells q.2 + x.i, blockStart hp s.cells q.2 + x.j, x.v, x.dr⟩ : SCHop F E)) := by
      rw [List.zipIdx_map, List.flatMap_map]
      rfl
    rw [e1, houts, List.zipIdx_map, List.flatMap_map]
    refine (zipIdx_idxOf hd (fun id k => (cellTerms H HS hp id).map fun x =>
      (⟨blockStart hp s.cells k + x.i, blockStart hp s.cells k + x.j, x.v, x.dr⟩ : SCHop F E))).trans ?_
    refine List.flatMap_congr fun id hid => ?_
    rw [off_eq hp hid]
  · rw [hpss, hzip, List.flatMap_map]
    refine List.flatMap_congr fun h hh => ?_
    simp only
    rw [off_eq hp (hi h hh).1, off_eq hp (hi h hh).2.1]

theorem off_append_left {n : ℕ → ℤ} : ∀ {A B : List ℕ} {id : ℕ}, id ∈ A → off n (A ++ B) id = off n A id
  | x :: xs, B, id, h => by
    rw [List.cons_append]
    unfold off
    split_ifs with hx
    · rfl
    · rw [off_append_left (by simpa [hx] using h)]

theorem off_append_right {n : ℕ → ℤ} : ∀ {A B : List ℕ} {id : ℕ}, id ∉ A → off n (A ++ B) id = (A.map n).sum + off n B id
  | [], B, id, _ => by simp
  | x :: xs, B, id, h => by
    rw [List.cons_append]
    conv_lhs => unfold off
    rw [if_neg (by rintro rfl; simp at h), off_append_right (fun h' => h (by simp [h'])), List.map_cons, List.sum_cons]
    ring

theorem namedTerms_congr {H : HashFns F E Λ} {HS : SCHash F E Λ} {hp : SCHeap F E Λ} {cells : List ℕ} {inters : List (InterSC E)}
    (hi : ∀ h ∈ inters, h.bra ∈ cells ∧ h.ket ∈ cells) {st st' : ℕ → ℤ} {c : ℤ} (hst : ∀ id ∈ cells, st' id = c + st id) :
    namedTerms H HS hp cells inters st' = (namedTerms H HS hp cells inters st).map fun t => { t with i := c + t.i, j := c + t.j } := by
  unfold namedTerms
  rw [List.map_append, List.map_flatMap, List.map_flatMap]
  congr 1
  · refine List.flatMap_congr fun id hid => ?_
    rw [List.map_map]
    refine List.map_congr_left fun x _ => ?_
    simp only [Function.comp, hst id hid, add_assoc]
  · refine List.flatMap_congr fun h hh => ?_
    rw [List.map_map]
    refine List.map_congr_left fun x _ => ?_
    simp only [Function.comp, hst _ (hi h hh).1, hst _ (hi h hh).2, add_assoc]

end Verif

import Verif.Spec.Order
import Verif.Proof.Sample

/-! # Renumbering of orbitals when parts are given in another order -/

namespace Verif

/-- Start of the block of part `id`. -/
def off (n : ℕ → ℤ) : List ℕ → ℕ → ℤ
  | [], _ => 0
  | x :: xs, id => if id = x then 0 else n x + off n xs id

/-- The part with orbital `g`. -/
def owner (n : ℕ → ℤ) : List ℕ → ℤ → Option ℕ
  | [], _ => none
  | x :: xs, g => if g < n x then some x else owner n xs (g - n x)

/-- The renumbering for another order of parts. -/
def reorder (n : ℕ → ℤ) (ids ids' : List ℕ) (g : ℤ) : ℤ :=
  match owner n ids g with
  | some id => off n ids' id + (g - off n ids id)
  | none => g

variable {n : ℕ → ℤ}

theorem off_range : ∀ {ids : List ℕ} (_ : ∀ id ∈ ids, 0 ≤ n id) {id : ℕ} (_ : id ∈ ids),
    0 ≤ off n ids id ∧ off n ids id + n id ≤ (ids.map n).sum
  | x :: xs, hn, id, hid => by
    have hx : 0 ≤ n x := hn x (by simp)
    have hsum : 0 ≤ (xs.map n).sum := List.sum_nonneg (by
      intro y hy
      obtain ⟨z, hz, rfl⟩ := List.mem_map.1 hy
      exact hn z (by simp [hz]))
    unfold off
    rw [List.map_cons, List.sum_cons]
    split_ifs with h
    · subst h; omega
    · have := off_range (ids := xs) (fun i hi => hn i (by simp [hi])) (id := id) (by simpa [h] using hid)
      omega

theorem owner_off : ∀ {ids : List ℕ} (_ : ids.Nodup) (_ : ∀ id ∈ ids, 0 ≤ n id) {id : ℕ} (_ : id ∈ ids) {l : ℤ} (_ : 0 ≤ l) (_ : l < n id),
    owner n ids (off n ids id + l) = some id
  | x :: xs, hd, hn, id, hid, l, h0, h1 => by
    unfold off owner
    by_cases h : id = x
    · subst h
      rw [if_pos rfl, if_pos (by omega)]
    · have hid' : id ∈ xs := by simpa [h] using hid
      have := off_range (ids := xs) (fun i hi => hn i (by simp [hi])) hid'
      rw [if_neg h, if_neg (by omega), show n x + off n xs id + l - n x = off n xs id + l by ring]
      exact owner_off hd.of_cons (fun i hi => hn i (by simp [hi])) hid' h0 h1

theorem owner_spec : ∀ {ids : List ℕ} (_ : ids.Nodup) (_ : ∀ id ∈ ids, 0 ≤ n id) {g : ℤ} (_ : 0 ≤ g) (_ : g < (ids.map n).sum),
    ∃ id ∈ ids, ∃ l, 0 ≤ l ∧ l < n id ∧ g = off n ids id + l
  | [], _, _, g, h0, h1 => by simp at h1; omega
  | x :: xs, hd, hn, g, h0, h1 => by
    rw [List.map_cons, List.sum_cons] at h1
    by_cases h : g < n x
    · exact ⟨x, by simp, g, h0, h, by simp [off]⟩
    · obtain ⟨id, hid, l, a, b, c⟩ := owner_spec hd.of_cons (fun i hi => hn i (by simp [hi])) (g := g - n x) (by omega) (by omega)
      refine ⟨id, by simp [hid], l, a, b, ?_⟩
      have : id ≠ x := by rintro rfl; exact (List.nodup_cons.1 hd).1 hid
      rw [off, if_neg this]
      omega

theorem reorder_off {ids ids' : List ℕ} (hd : ids.Nodup) (hn : ∀ id ∈ ids, 0 ≤ n id) {id : ℕ} (hid : id ∈ ids) {l : ℤ} (h0 : 0 ≤ l)
    (h1 : l < n id) : reorder n ids ids' (off n ids id + l) = off n ids' id + l := by
  unfold reorder
  rw [owner_off hd hn hid h0 h1]
  simp only
  ring

theorem reorder_bij {ids ids' : List ℕ} (hd : ids.Nodup) (hp : ids'.Perm ids) (hn : ∀ id ∈ ids, 0 ≤ n id) {N : ℕ}
    (hN : (N : ℤ) = (ids.map n).sum) : Renumbering N (reorder n ids ids') := by
  have key : ∀ {a b : List ℕ}, a.Nodup → b.Perm a → (∀ id ∈ a, 0 ≤ n id) → (N : ℤ) = (a.map n).sum → ∀ g ∈ Set.Ico (0 : ℤ) N,
      reorder n a b g ∈ Set.Ico (0 : ℤ) N ∧ reorder n b a (reorder n a b g) = g := by
    intro a b ha hab hna hNa g hg
    obtain ⟨id, hid, l, h0, h1, rfl⟩ := owner_spec ha hna hg.1 (hNa ▸ hg.2)
    have hid' := hab.mem_iff.2 hid
    have hnb : ∀ id ∈ b, 0 ≤ n id := fun i hi => hna i (hab.mem_iff.1 hi)
    rw [reorder_off ha hna hid h0 h1, reorder_off (hab.nodup_iff.2 ha) hnb hid' h0 h1]
    refine ⟨?_, rfl⟩
    have := off_range hnb hid'
    rw [(hab.map n).sum_eq, ← hNa] at this
    constructor <;> omega
  have hd' := hp.nodup_iff.2 hd
  have hn' : ∀ id ∈ ids', 0 ≤ n id := fun i hi => hn i (hp.mem_iff.1 hi)
  have hN' : (N : ℤ) = (ids'.map n).sum := by rw [(hp.map n).sum_eq, hN]
  refine Set.InvOn.bijOn (f' := reorder n ids' ids) ⟨fun g hg => (key hd hp hn hN g hg).2, fun g hg => (key hd' hp.symm hn' hN' g hg).2⟩
    (fun g hg => (key hd hp hn hN g hg).1) fun g hg => (key hd' hp.symm hn' hN' g hg).1

theorem flatten_off {α : Type*} (e : ℕ → List α) : ∀ {ids : List ℕ} (_ : ∀ id ∈ ids, ((e id).length : ℤ) = n id) {id : ℕ} (_ : id ∈ ids)
    {l : ℤ} (_ : 0 ≤ l) (_ : l < n id), ((ids.map e).flatten)[(off n ids id + l).toNat]? = (e id)[l.toNat]?
  | x :: xs, hn, id, hid, l, h0, h1 => by
    have hx := hn x (by simp)
    unfold off
    rw [List.map_cons, List.flatten_cons]
    by_cases h : id = x
    · subst h
      rw [if_pos rfl, zero_add, List.getElem?_append_left (by omega)]
    · have hid' : id ∈ xs := by simpa [h] using hid
      have hn' : ∀ i ∈ xs, ((e i).length : ℤ) = n i := fun i hi => hn i (by simp [hi])
      have hr := off_range (n := n) (ids := xs) (fun i hi => by rw [← hn' i hi]; positivity) hid'
      rw [if_neg h, List.getElem?_append_right (by omega), ← flatten_off e hn' hid' h0 h1]
      congr 1
      omega

theorem moved_rows {α : Type*} (e : ℕ → List α) {ids ids' : List ℕ} (hd : ids.Nodup) (hp : ids'.Perm ids)
    (hn : ∀ id ∈ ids, ((e id).length : ℤ) = n id) {N : ℕ} (hN : (N : ℤ) = (ids.map n).sum) :
    MovedRows N (reorder n ids ids') ((ids.map e).flatten) ((ids'.map e).flatten) := by
  have hn0 : ∀ id ∈ ids, 0 ≤ n id := fun i hi => by rw [← hn i hi]; positivity
  have hlen : ((ids.map e).flatten).length = N := by
    have : ((((ids.map e).flatten).length : ℕ) : ℤ) = (ids.map n).sum := by
      rw [List.length_flatten, List.map_map]
      push_cast
      rw [List.map_map]
      congr 1
      exact List.map_congr_left fun i hi => hn i hi
    omega
  refine ⟨hlen, ?_, fun a h0 h1 => ?_⟩
  · rw [((hp.map e).flatten).length_eq, hlen]
  · obtain ⟨id, hid, l, l0, l1, rfl⟩ := owner_spec hd hn0 h0 (hN ▸ h1)
    rw [reorder_off hd hn0 hid l0 l1, flatten_off e (fun i hi => hn i (hp.mem_iff.1 hi)) (hp.mem_iff.2 hid) l0 l1, flatten_off e hn hid l0 l1]

theorem off_eq {F E Λ : Type*} [Field F] [DecidableEq F] [Star E] (hp : SCHeap F E Λ) : ∀ {cells : List ℕ} {id : ℕ} (_ : id ∈ cells),
    blockStart hp cells (cells.idxOf id) = off (fun id => (hp id).numOrbSc) cells id
  | x :: xs, id, hid => by
    unfold off
    by_cases h : id = x
    · subst h; simp [blockStart]
    · have hid' : id ∈ xs := by simpa [h] using hid
      rw [if_neg h, ← off_eq hp hid', List.idxOf_cons_ne _ (Ne.symm h)]
      simp [blockStart]

end Verif

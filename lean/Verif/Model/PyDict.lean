import Mathlib.Data.List.Nodup
import Mathlib.Data.List.Basic

/-!
# Python dictionaries

Insertion-ordered dictionaries (CPython `dict`): an association list in which
every key occurs at most once.  `d[k] = v` overwrites in place or appends,
`d.pop(k)` removes, iteration follows insertion order.
-/

set_option linter.unusedSectionVars false

namespace Verif

/-- A CPython `dict` seen as the list of its items in iteration order. -/
abbrev PyDict (K V : Type*) := List (K × V)

namespace PyDict

variable {K V : Type*} [DecidableEq K]

/-- `d.get(k)`; `none` models `KeyError`. -/
def get? : PyDict K V → K → Option V
  | [], _ => none
  | (k', v) :: d, k => if k' = k then some v else get? d k

/-- `d[k] = v`. -/
def set : PyDict K V → K → V → PyDict K V
  | [], k, v => [(k, v)]
  | (k', v') :: d, k, v => if k' = k then (k', v) :: d else (k', v') :: set d k v

/-- `d.pop(k)` for a present key (no effect for an absent one). -/
def erase : PyDict K V → K → PyDict K V
  | [], _ => []
  | (k', v') :: d, k => if k' = k then d else (k', v') :: erase d k

/-- `d.keys()` in iteration order. -/
def keys (d : PyDict K V) : List K := d.map Prod.fst

/-- The representation invariant of a dictionary: keys are unique. -/
def WF (d : PyDict K V) : Prop := (keys d).Nodup

@[simp] theorem keys_nil : keys ([] : PyDict K V) = [] := rfl
@[simp] theorem keys_cons (p : K × V) (d : PyDict K V) :
    keys (p :: d) = p.1 :: keys d := rfl
@[simp] theorem get?_nil (k : K) : get? ([] : PyDict K V) k = none := rfl
theorem get?_cons (p : K × V) (d : PyDict K V) (k : K) :
    get? (p :: d) k = if p.1 = k then some p.2 else get? d k := rfl

theorem WF_nil : WF ([] : PyDict K V) := List.nodup_nil

theorem get?_eq_none_iff (d : PyDict K V) (k : K) : get? d k = none ↔ k ∉ keys d := by
  induction d with
  | nil => simp
  | cons p d ih =>
    rw [get?_cons]
    by_cases h : p.1 = k
    · simp [h]
    · simp [h, ih, Ne.symm h]

theorem get?_isSome_iff (d : PyDict K V) (k : K) : (∃ v, get? d k = some v) ↔ k ∈ keys d := by
  rw [← not_iff_not, ← get?_eq_none_iff]
  cases get? d k <;> simp

theorem get?_set_self (d : PyDict K V) (k : K) (v : V) : get? (set d k v) k = some v := by
  induction d with
  | nil => simp [set, get?_cons]
  | cons p d ih =>
    obtain ⟨k', v'⟩ := p
    by_cases h : k' = k
    · simp [set, h, get?_cons]
    · simp [set, h, get?_cons, ih]

theorem get?_set_of_ne (d : PyDict K V) {k k₂ : K} (v : V) (hne : k₂ ≠ k) :
    get? (set d k v) k₂ = get? d k₂ := by
  induction d with
  | nil => simp [set, get?_cons, hne.symm]
  | cons p d ih =>
    obtain ⟨k', v'⟩ := p
    by_cases h : k' = k
    · subst h; simp [set, get?_cons, hne.symm]
    · simp [set, h, get?_cons, ih]

theorem get?_set (d : PyDict K V) (k k₂ : K) (v : V) :
    get? (set d k v) k₂ = if k₂ = k then some v else get? d k₂ := by
  by_cases h : k₂ = k
  · subst h; simp [get?_set_self]
  · simp [h, get?_set_of_ne]

theorem mem_keys_set (d : PyDict K V) (k k₂ : K) (v : V) :
    k₂ ∈ keys (set d k v) ↔ k₂ = k ∨ k₂ ∈ keys d := by
  rw [← get?_isSome_iff, ← get?_isSome_iff, get?_set]
  by_cases h : k₂ = k <;> simp [h]

theorem WF_set {d : PyDict K V} (h : WF d) (k : K) (v : V) : WF (set d k v) := by
  induction d with
  | nil => simp [set, WF]
  | cons p d ih =>
    obtain ⟨k', v'⟩ := p
    simp only [WF, keys_cons, List.nodup_cons] at h
    by_cases hk : k' = k
    · simp only [set, hk, if_true, WF, keys_cons, List.nodup_cons]
      exact ⟨hk ▸ h.1, h.2⟩
    · simp only [set, hk, if_false, WF, keys_cons, List.nodup_cons]
      refine ⟨?_, ih h.2⟩
      rw [mem_keys_set]
      rintro (h1 | h1)
      · exact hk h1
      · exact h.1 h1

theorem mem_of_mem_erase {d : PyDict K V} {k : K} {p : K × V} (h : p ∈ erase d k) : p ∈ d := by
  induction d with
  | nil => simp [erase] at h
  | cons q d ih =>
    obtain ⟨k', v'⟩ := q
    by_cases hk : k' = k
    · simp only [erase, hk, if_true] at h
      exact List.mem_cons_of_mem _ h
    · simp only [erase, hk, if_false, List.mem_cons] at h ⊢
      rcases h with h | h
      · exact Or.inl h
      · exact Or.inr (ih h)

theorem erase_sublist (d : PyDict K V) (k : K) : (erase d k).Sublist d := by
  induction d with
  | nil => simp [erase]
  | cons q d ih =>
    obtain ⟨k', v'⟩ := q
    by_cases hk : k' = k
    · simp [erase, hk]
    · simp [erase, hk, ih]

theorem WF_erase {d : PyDict K V} (h : WF d) (k : K) : WF (erase d k) :=
  List.Nodup.sublist ((erase_sublist d k).map _) h

theorem get?_erase {d : PyDict K V} (h : WF d) (k k₂ : K) :
    get? (erase d k) k₂ = if k₂ = k then none else get? d k₂ := by
  induction d with
  | nil => simp [erase]
  | cons q d ih =>
    obtain ⟨k', v'⟩ := q
    simp only [WF, keys_cons, List.nodup_cons] at h
    by_cases hk : k' = k
    · subst hk
      simp only [erase, if_true, get?_cons]
      by_cases h2 : k₂ = k'
      · subst h2; simp [get?_eq_none_iff, h.1]
      · simp [h2, Ne.symm h2]
    · simp only [erase, hk, if_false, get?_cons, ih h.2]
      by_cases h1 : k' = k₂
      · subst h1; simp [hk]
      · simp [h1]

/-- An item belongs to the dictionary exactly when lookup finds it. -/
theorem mem_iff_get? {d : PyDict K V} (h : WF d) (k : K) (v : V) :
    (k, v) ∈ d ↔ get? d k = some v := by
  induction d with
  | nil => simp
  | cons q d ih =>
    obtain ⟨k', v'⟩ := q
    simp only [WF, keys_cons, List.nodup_cons] at h
    rw [get?_cons, List.mem_cons, ih h.2]
    by_cases hk : k' = k
    · subst hk
      have : get? d k' ≠ some v := by
        rw [(get?_eq_none_iff d k').2 h.1]; simp
      simp [this, eq_comm]
    · simp [hk, Ne.symm hk]

/-- `mem_iff_get?` without the invariant, in the direction lookup → membership. -/
theorem mem_of_get? {d : PyDict K V} {k : K} {v : V} (h : get? d k = some v) : (k, v) ∈ d := by
  induction d with
  | nil => simp at h
  | cons q d ih =>
    rw [get?_cons] at h
    by_cases hk : q.1 = k
    · simp only [hk, if_true, Option.some.injEq] at h
      subst hk; subst h; simp
    · simp only [hk, if_false] at h
      exact List.mem_cons_of_mem _ (ih h)

theorem mem_keys_of_mem {d : PyDict K V} {k : K} {v : V} (h : (k, v) ∈ d) : k ∈ keys d :=
  List.mem_map.2 ⟨_, h, rfl⟩

theorem WF_filter {d : PyDict K V} (h : WF d) (p : K × V → Bool) : WF (d.filter p) :=
  List.Nodup.sublist (List.Sublist.map _ List.filter_sublist) h

theorem set_of_not_mem {d : PyDict K V} {k : K} (h : k ∉ keys d) (v : V) :
    set d k v = d ++ [(k, v)] := by
  induction d with
  | nil => rfl
  | cons q d ih =>
    obtain ⟨k', v'⟩ := q
    simp only [keys_cons, List.mem_cons, not_or] at h
    simp [set, Ne.symm h.1, ih h.2]

/-- Building a new dictionary by renaming (or dropping) the keys of another one,
`for k, v in d.items(): if ...: new[f k] = v`. -/
def remap {K' : Type*} [DecidableEq K'] (f : K → Option K') (d : PyDict K V) : PyDict K' V :=
  d.foldl (fun acc p => match f p.1 with
    | none => acc
    | some k' => set acc k' p.2) []

/-- If the renaming is injective on the keys nothing is overwritten. -/
theorem remap_eq_filterMap {K' : Type*} [DecidableEq K'] (f : K → Option K') {d : PyDict K V}
    (hd : WF d) (hf : ∀ k ∈ keys d, ∀ k₂ ∈ keys d, ∀ a, f k = some a → f k₂ = some a → k = k₂) :
    remap f d = d.filterMap (fun p => (f p.1).map (fun k' => (k', p.2))) := by
  have gen : ∀ (d acc : PyDict K V) (acc' : PyDict K' V), WF (acc ++ d) →
      (∀ k ∈ keys (acc ++ d), ∀ k₂ ∈ keys (acc ++ d), ∀ a, f k = some a → f k₂ = some a → k = k₂) →
      acc' = acc.filterMap (fun p => (f p.1).map (fun k' => (k', p.2))) →
      d.foldl (fun acc p => match f p.1 with
        | none => acc
        | some k' => set acc k' p.2) acc' =
        (acc ++ d).filterMap (fun p => (f p.1).map (fun k' => (k', p.2))) := by
    intro d
    induction d with
    | nil => intro acc acc' _ _ h; simpa using h
    | cons p d ih =>
      intro acc acc' hwf hinj hacc
      have e : acc ++ p :: d = (acc ++ [p]) ++ d := by simp
      rw [List.foldl_cons, e]
      apply ih
      · rwa [← e]
      · rwa [← e]
      · cases hp : f p.1 with
        | none => simp [hacc, hp]
        | some a =>
          have : a ∉ keys acc' := by
            intro ha
            rw [hacc] at ha
            obtain ⟨q, hq, hqa⟩ := List.mem_map.1 ha
            obtain ⟨r, hr, hrq⟩ := List.mem_filterMap.1 hq
            cases hfr : f r.1 with
            | none => simp [hfr] at hrq
            | some b =>
              simp only [hfr, Option.map_some, Option.some.injEq] at hrq
              subst hrq
              simp only at hqa
              subst hqa
              have hk := hinj r.1 (List.mem_map.2 ⟨r, by simp [hr], rfl⟩) p.1
                (List.mem_map.2 ⟨p, by simp, rfl⟩) b hfr hp
              have hn : (keys (acc ++ p :: d)).Nodup := hwf
              rw [keys, List.map_append, List.nodup_append] at hn
              exact hn.2.2 r.1 (List.mem_map.2 ⟨r, hr, rfl⟩) p.1
                (by simp) hk
          have h2 := set_of_not_mem this p.2
          rw [hacc] at h2
          simp [hacc, hp, h2]
  exact gen d [] [] (by simpa using hd) (by simpa using hf) (by simp)

theorem keys_filterMap {K' : Type*} (f : K → Option K') (d : PyDict K V) :
    keys (d.filterMap (fun p => (f p.1).map (fun k' => (k', p.2)))) = (keys d).filterMap f := by
  induction d with
  | nil => rfl
  | cons p d ih =>
    cases h : f p.1 <;> simp_all [keys]

theorem nodup_filterMap_of_inj {K' : Type*} (f : K → Option K') {l : List K} (hl : l.Nodup)
    (hf : ∀ k ∈ l, ∀ k₂ ∈ l, ∀ a, f k = some a → f k₂ = some a → k = k₂) :
    (l.filterMap f).Nodup := by
  induction l with
  | nil => simp
  | cons x l ih =>
    rw [List.nodup_cons] at hl
    have ih' := ih hl.2 (fun k hk k₂ hk₂ => hf k (by simp [hk]) k₂ (by simp [hk₂]))
    cases h : f x with
    | none => simpa [h] using ih'
    | some a =>
      rw [List.filterMap_cons_some h, List.nodup_cons]
      refine ⟨?_, ih'⟩
      intro hm
      obtain ⟨y, hy, hya⟩ := List.mem_filterMap.1 hm
      have := hf x (by simp) y (by simp [hy]) a h hya
      exact hl.1 (this ▸ hy)

theorem WF_remap {K' : Type*} [DecidableEq K'] (f : K → Option K') {d : PyDict K V}
    (hd : WF d) (hf : ∀ k ∈ keys d, ∀ k₂ ∈ keys d, ∀ a, f k = some a → f k₂ = some a → k = k₂) :
    WF (remap f d) := by
  rw [remap_eq_filterMap f hd hf, WF, keys_filterMap]
  exact nodup_filterMap_of_inj f hd hf

theorem mem_remap {K' : Type*} [DecidableEq K'] (f : K → Option K') {d : PyDict K V}
    (hd : WF d) (hf : ∀ k ∈ keys d, ∀ k₂ ∈ keys d, ∀ a, f k = some a → f k₂ = some a → k = k₂)
    (a : K') (v : V) : (a, v) ∈ remap f d ↔ ∃ k, f k = some a ∧ (k, v) ∈ d := by
  rw [remap_eq_filterMap f hd hf, List.mem_filterMap]
  constructor
  · rintro ⟨p, hp, h⟩
    cases hfp : f p.1 with
    | none => simp [hfp] at h
    | some b =>
      simp only [hfp, Option.map_some, Option.some.injEq, Prod.mk.injEq] at h
      exact ⟨p.1, by rw [hfp, h.1], by rw [← h.2]; exact hp⟩
  · rintro ⟨k, hk, hm⟩
    exact ⟨(k, v), hm, by simp [hk]⟩

end PyDict
end Verif

import Verif.Spec.Super
import Mathlib.Tactic.Ring
import Mathlib.Tactic.Linarith
import Mathlib.Data.List.Basic
import Mathlib.Data.List.Sort
import Mathlib.Data.List.NodupEquivFin

/-! # Index maps of the supercell -/

namespace Verif

/-! ## Vacancy searches -/

theorem getD_eq_get {l : List ℤ} {i : ℕ} (h : i < l.length) : l.getD i 0 = l[i] := by
  simp [List.getD, h]

/-- Number of vacancies below `x`. -/
def below (vac : List ℤ) (x : ℤ) : ℕ := vac.countP (fun v => decide (v < x))

theorem below_cons (v : ℤ) (vs : List ℤ) (x : ℤ) :
    below (v :: vs) x = below vs x + if v < x then 1 else 0 := by
  simp [below, List.countP_cons]

theorem below_eq_zero {vac : List ℤ} {x : ℤ} (h : ∀ v ∈ vac, x ≤ v) : below vac x = 0 := by
  simp only [below, List.countP_eq_zero, decide_eq_true_eq]
  intro a ha
  have := h a ha
  omega

theorem below_eq_length {vac : List ℤ} {x : ℤ} (h : ∀ v ∈ vac, v < x) : below vac x = vac.length := by
  simp only [below, List.countP_eq_length, decide_eq_true_eq]
  exact h

theorem below_append (l m : List ℤ) (x : ℤ) : below (l ++ m) x = below l x + below m x := by
  simp [below]

theorem linLoop_spec (x : ℤ) : ∀ (vac : List ℤ) (off : ℤ), vac.Pairwise (· < ·) →
    linLoop x vac off = if x ∈ vac then none else some (off + below vac x)
  | [], off, _ => by simp [linLoop, below]
  | v :: vs, off, h => by
    rw [List.pairwise_cons] at h
    unfold linLoop
    by_cases h1 : v < x
    · rw [if_pos h1, linLoop_spec x vs (off + 1) h.2, below_cons, if_pos h1]
      have : x ∈ v :: vs ↔ x ∈ vs := by
        simp only [List.mem_cons]; constructor
        · rintro (h | h); exact absurd h (by omega); exact h
        · exact Or.inr
      simp only [this]
      split_ifs
      · rfl
      · congr 1; push_cast; ring
    · rw [if_neg h1]
      by_cases h2 : v = x
      · rw [if_pos h2]; simp [h2]
      · rw [if_neg h2]
        have hlt : x < v := by omega
        have hn : x ∉ v :: vs := by
          simp only [List.mem_cons, not_or]
          refine ⟨by omega, fun hm => ?_⟩
          have := h.1 x hm; omega
        rw [if_neg hn, below_eq_zero]
        · simp
        · intro w hw
          rcases List.mem_cons.1 hw with rfl | hw
          · omega
          · have := h.1 w hw; omega

theorem pw_get {vac : List ℤ} (h : vac.Pairwise (· < ·)) {i j : ℕ} (hij : i < j) (hj : j < vac.length) :
    vac[i] < vac[j] := List.pairwise_iff_getElem.1 h i j (by omega) hj hij

theorem below_of_between {vac : List ℤ} (h : vac.Pairwise (· < ·)) {i : ℕ} (hi : i + 1 < vac.length)
    {x : ℤ} (h0 : vac[i] < x) (h1 : x < vac[i + 1]) : below vac x = i + 1 ∧ x ∉ vac := by
  have hsplit : vac = vac.take (i + 1) ++ vac.drop (i + 1) := (List.take_append_drop _ _).symm
  have ht : ∀ v ∈ vac.take (i + 1), v < x := by
    intro v hv
    obtain ⟨k, hk, rfl⟩ := List.mem_iff_getElem.1 hv
    simp only [List.length_take] at hk
    rw [List.getElem_take]
    rcases Nat.lt_or_ge k i with hki | hki
    · exact lt_trans (pw_get h hki (by omega)) h0
    · have : k = i := by omega
      subst this; exact h0
  have hd : ∀ v ∈ vac.drop (i + 1), x < v := by
    intro v hv
    obtain ⟨k, hk, rfl⟩ := List.mem_iff_getElem.1 hv
    simp only [List.length_drop] at hk
    rw [List.getElem_drop]
    rcases Nat.eq_zero_or_pos k with rfl | hki
    · simpa using h1
    · exact lt_trans h1 (pw_get h (by omega) (by omega))
  constructor
  · rw [hsplit, below_append, below_eq_length ht, below_eq_zero (fun v hv => le_of_lt (hd v hv))]
    simp only [List.length_take]; omega
  · intro hx
    rw [hsplit, List.mem_append] at hx
    rcases hx with hx | hx
    · exact lt_irrefl _ (ht x hx)
    · exact lt_irrefl _ (hd x hx)

theorem bisect_spec (vac : List ℤ) (x : ℤ) (hp : vac.Pairwise (· < ·)) : ∀ (k i0 i1 : ℕ),
    i1 - i0 = k → i0 < i1 → (h1 : i1 < vac.length) → vac.getD i0 0 < x → x < vac.getD i1 0 →
    bisect vac x i0 i1 = if x ∈ vac then none else some (below vac x) := by
  intro k
  induction k using Nat.strong_induction_on with
  | _ k ih =>
    intro i0 i1 hk h01 hl hx0 hx1
    unfold bisect
    by_cases hgt : i1 - i0 > 1
    · rw [if_pos hgt]
      simp only
      by_cases ha : vac.getD (i0 + (i1 - i0) / 2) 0 < x
      · rw [if_pos ha]
        exact ih (i1 - (i0 + (i1 - i0) / 2)) (by omega) _ _ rfl (by omega) hl ha hx1
      · rw [if_neg ha]
        by_cases hb : vac.getD (i0 + (i1 - i0) / 2) 0 > x
        · rw [if_pos hb]
          exact ih ((i0 + (i1 - i0) / 2) - i0) (by omega) _ _ rfl (by omega) (by omega) hx0 hb
        · rw [if_neg hb]
          have he : vac.getD (i0 + (i1 - i0) / 2) 0 = x := by omega
          have : x ∈ vac := by
            rw [← he, getD_eq_get (by omega)]
            exact List.getElem_mem _
          rw [if_pos this]
    · rw [if_neg hgt]
      have hi : i1 = i0 + 1 := by omega
      subst hi
      rw [getD_eq_get (by omega)] at hx0 hx1
      obtain ⟨hb, hn⟩ := below_of_between hp hl hx0 hx1
      rw [if_neg hn, hb]

theorem mem_bounds {vac : List ℤ} (hp : vac.Pairwise (· < ·)) (h0 : 0 < vac.length) :
    ∀ v ∈ vac, vac.getD 0 0 ≤ v ∧ v ≤ vac.getD (vac.length - 1) 0 := by
  intro v hv
  obtain ⟨k, hk, rfl⟩ := List.mem_iff_getElem.1 hv
  rw [getD_eq_get h0, getD_eq_get (by omega)]
  constructor
  · rcases Nat.eq_zero_or_pos k with rfl | hk0
    · exact le_refl _
    · exact le_of_lt (pw_get hp hk0 hk)
  · rcases Nat.lt_or_ge k (vac.length - 1) with h | h
    · exact le_of_lt (pw_get hp h (by omega))
    · have : k = vac.length - 1 := by omega
      subst this; exact le_refl _

theorem vacSearchBisect_spec {vac : List ℤ} (hp : vac.Pairwise (· < ·)) (h0 : 0 < vac.length) (x : ℤ) :
    vacSearchBisect vac x = if x ∈ vac then -1 else x - below vac x := by
  have hb := mem_bounds hp h0
  unfold vacSearchBisect
  simp only
  by_cases h1 : x < vac.getD 0 0
  · rw [if_pos h1, if_neg (fun hm => by have := (hb x hm).1; omega), below_eq_zero]
    · simp
    · intro v hv; have := (hb v hv).1; omega
  rw [if_neg h1]
  by_cases h2 : x = vac.getD 0 0
  · rw [if_pos h2, if_pos]
    rw [h2, getD_eq_get h0]; exact List.getElem_mem _
  rw [if_neg h2]
  by_cases h3 : x = vac.getD (vac.length - 1) 0
  · rw [if_pos h3, if_pos]
    rw [h3, getD_eq_get (by omega)]; exact List.getElem_mem _
  rw [if_neg h3]
  by_cases h4 : x > vac.getD (vac.length - 1) 0
  · rw [if_pos h4, if_neg (fun hm => by have := (hb x hm).2; omega), below_eq_length]
    intro v hv; have := (hb v hv).2; omega
  rw [if_neg h4]
  have hlen : 0 < vac.length - 1 := by
    rcases Nat.eq_zero_or_pos (vac.length - 1) with h | h
    · rw [h] at h3 h4; omega
    · exact h
  rw [bisect_spec vac x hp _ 0 (vac.length - 1) rfl hlen (by omega) (by omega) (by omega)]
  split_ifs <;> rfl

theorem vacSearchLinear_spec {vac : List ℤ} (hp : vac.Pairwise (· < ·)) (h0 : 0 < vac.length) (x : ℤ) :
    vacSearchLinear vac x = if x ∈ vac then -1 else x - below vac x := by
  have hb := mem_bounds hp h0
  unfold vacSearchLinear
  by_cases h1 : x < vac.getD 0 0
  · rw [if_pos h1, if_neg (fun hm => by have := (hb x hm).1; omega), below_eq_zero]
    · simp
    · intro v hv; have := (hb v hv).1; omega
  rw [if_neg h1]
  by_cases h4 : x > vac.getD (vac.length - 1) 0
  · rw [if_pos h4, if_neg (fun hm => by have := (hb x hm).2; omega), below_eq_length]
    intro v hv; have := (hb v hv).2; omega
  rw [if_neg h4, linLoop_spec x vac 0 hp]
  split_ifs <;> simp

/-! ## Enumeration of the quadruples -/

theorem range_flatMap (b : ℕ) : ∀ a : ℕ,
    (List.range a).flatMap (fun i => (List.range b).map (fun j => i * b + j)) = List.range (a * b)
  | 0 => by simp
  | a + 1 => by
    rw [List.range_succ, List.flatMap_append, range_flatMap b a, Nat.succ_mul, List.range_add]
    simp

/-- All quadruples in loop order. -/
def quads (d : Dim) (n : ℕ) : List IdPc :=
  (cellLoop d).flatMap fun c => (List.range n).map fun io : ℕ => ((c.1, c.2.1, c.2.2, (io : ℤ)) : IdPc)

/-- Legal cells. -/
def LegalCell (d : Dim) (c : Cell) : Prop :=
  (0 ≤ c.1 ∧ c.1 < d.a) ∧ (0 ≤ c.2.1 ∧ c.2.1 < d.b) ∧ (0 ≤ c.2.2 ∧ c.2.2 < d.c)

theorem mem_cellLoop (d : Dim) (c : Cell) : c ∈ cellLoop d ↔ LegalCell d c := by
  obtain ⟨x, y, z⟩ := c
  simp only [cellLoop, List.mem_flatMap, List.mem_range, List.mem_map, Prod.mk.injEq, LegalCell]
  constructor
  · rintro ⟨a, ha, b, hb, c, hc, rfl, rfl, rfl⟩; omega
  · rintro ⟨h1, h2, h3⟩
    exact ⟨x.toNat, by omega, y.toNat, by omega, z.toNat, by omega, by omega, by omega, by omega⟩

theorem mem_quads (d : Dim) (n : ℕ) (q : IdPc) : q ∈ quads d n ↔ LegalId d n q := by
  obtain ⟨x, y, z, w⟩ := q
  simp only [quads, List.mem_flatMap, mem_cellLoop, List.mem_map, List.mem_range, Prod.mk.injEq,
    LegalCell, LegalId]
  constructor
  · rintro ⟨⟨a, b, c⟩, h, io, hio, rfl, rfl, rfl, rfl⟩
    simp only at h ⊢; omega
  · rintro ⟨h1, h2, h3, h4⟩
    exact ⟨(x, y, z), ⟨h1, h2, h3⟩, w.toNat, by omega, rfl, rfl, rfl, by simp; omega⟩

theorem cellLoop_map (d : Dim) :
    (cellLoop d).map (fun c : Cell => c.1 * (d.b : ℤ) * (d.c : ℤ) + c.2.1 * (d.c : ℤ) + c.2.2)
      = (List.range d.prod).map (fun k : ℕ => (k : ℤ)) := by
  unfold cellLoop Dim.prod
  have e1 : ∀ ia : ℕ, (List.range d.b).flatMap (fun ib : ℕ =>
      (List.range d.c).map fun ic : ℕ => (ia : ℤ) * d.b * d.c + (ib : ℤ) * d.c + (ic : ℤ))
      = (List.range (d.b * d.c)).map (fun k : ℕ => (ia : ℤ) * d.b * d.c + (k : ℤ)) := by
    intro ia
    rw [← range_flatMap d.c d.b, List.map_flatMap]
    congr 1; funext ib
    rw [List.map_map]
    congr 1; funext ic
    simp only [Function.comp]
    push_cast; ring
  rw [Nat.mul_assoc, ← range_flatMap (d.b * d.c) d.a]
  simp only [List.map_flatMap, List.map_map, Function.comp_def]
  congr 1; funext ia
  rw [e1]
  congr 1; funext k
  push_cast; ring

theorem quads_map (d : Dim) (n : ℕ) :
    (quads d n).map (idPc2Sc d n) = (List.range (d.prod * n)).map (fun k : ℕ => (k : ℤ)) := by
  rw [← range_flatMap n d.prod]
  simp only [quads, List.map_flatMap, List.map_map, Function.comp_def]
  have h := cellLoop_map d
  have : (cellLoop d).flatMap (fun c => (List.range n).map (fun io : ℕ =>
      idPc2Sc d n (c.1, c.2.1, c.2.2, (io : ℤ))))
      = ((cellLoop d).map (fun c : Cell => c.1 * (d.b : ℤ) * (d.c : ℤ) + c.2.1 * (d.c : ℤ) + c.2.2)).flatMap
        (fun z : ℤ => (List.range n).map (fun io : ℕ => z * n + (io : ℤ))) := by
    rw [List.flatMap_map]; rfl
  rw [this, h, List.flatMap_map]
  congr 1

theorem length_quads (d : Dim) (n : ℕ) : (quads d n).length = d.prod * n := by
  have := congrArg List.length (quads_map d n)
  simpa using this

theorem quads_get (d : Dim) (n : ℕ) (k : ℕ) (hk : k < (quads d n).length) :
    idPc2Sc d n ((quads d n)[k]) = k := by
  have h := quads_map d n
  have h2 : ((quads d n).map (idPc2Sc d n))[k]? = ((List.range (d.prod * n)).map (fun k : ℕ => (k : ℤ)))[k]? := by
    rw [h]
  rw [length_quads] at hk
  simpa [hk, length_quads] using h2

theorem idPc2Sc_inj {d : Dim} {n : ℕ} {p q : IdPc} (hp : LegalId d n p) (hq : LegalId d n q)
    (h : idPc2Sc d n p = idPc2Sc d n q) : p = q := by
  obtain ⟨i, hi, rfl⟩ := List.mem_iff_getElem.1 ((mem_quads d n p).2 hp)
  obtain ⟨j, hj, rfl⟩ := List.mem_iff_getElem.1 ((mem_quads d n q).2 hq)
  rw [quads_get, quads_get] at h
  have : i = j := by exact_mod_cast h
  subst this; rfl

theorem idPc2Sc_range {d : Dim} {n : ℕ} {q : IdPc} (hq : LegalId d n q) :
    0 ≤ idPc2Sc d n q ∧ idPc2Sc d n q < (d.prod * n : ℕ) := by
  obtain ⟨j, hj, rfl⟩ := List.mem_iff_getElem.1 ((mem_quads d n q).2 hq)
  rw [quads_get]
  rw [length_quads] at hj
  constructor
  · positivity
  · exact_mod_cast hj

theorem idPc2Sc_get {d : Dim} {n : ℕ} {q : IdPc} (hq : LegalId d n q) :
    (quads d n)[(idPc2Sc d n q).toNat]? = some q := by
  obtain ⟨j, hj, rfl⟩ := List.mem_iff_getElem.1 ((mem_quads d n q).2 hq)
  rw [quads_get]
  simp [hj]

theorem quads_nodup (d : Dim) (n : ℕ) : (quads d n).Nodup := by
  have h : ((quads d n).map (idPc2Sc d n)).Nodup := by
    rw [quads_map]
    exact (List.nodup_range).map (fun a b h => by exact_mod_cast h)
  exact List.Nodup.of_map _ h

/-! ## Numbering with vacancies -/

theorem mem_vacIdSc (d : Dim) (n : ℕ) (vacs : List IdPc) (x : ℤ) :
    x ∈ vacIdSc d n vacs ↔ ∃ q ∈ vacs, idPc2Sc d n q = x := by
  unfold vacIdSc
  rw [(List.perm_insertionSort _ _).mem_iff]; simp

theorem length_vacIdSc (d : Dim) (n : ℕ) (vacs : List IdPc) :
    (vacIdSc d n vacs).length = vacs.length := by
  unfold vacIdSc; rw [(List.perm_insertionSort _ _).length_eq]; simp

theorem vacIdSc_nodup {d : Dim} {n : ℕ} {vacs : List IdPc} (h : LegalVacs d n vacs) :
    (vacIdSc d n vacs).Nodup := by
  unfold vacIdSc
  rw [(List.perm_insertionSort _ _).nodup_iff]
  exact List.Nodup.map_on (fun x hx y hy he => idPc2Sc_inj (h.legal x hx) (h.legal y hy) he) h.nodup

theorem vacIdSc_sorted {d : Dim} {n : ℕ} {vacs : List IdPc} (h : LegalVacs d n vacs) :
    (vacIdSc d n vacs).Pairwise (· < ·) := by
  have h1 : (vacIdSc d n vacs).Pairwise (· ≤ ·) := List.pairwise_insertionSort (· ≤ ·) _
  have h2 := vacIdSc_nodup h
  exact (List.Pairwise.and h1 h2).imp (fun ⟨a, b⟩ => lt_of_le_of_ne a b)

theorem mem_vacIdSc_iff {d : Dim} {n : ℕ} {vacs : List IdPc} (h : LegalVacs d n vacs) {q : IdPc}
    (hq : LegalId d n q) : idPc2Sc d n q ∈ vacIdSc d n vacs ↔ q ∈ vacs := by
  rw [mem_vacIdSc]
  constructor
  · rintro ⟨p, hp, he⟩
    rwa [← idPc2Sc_inj (h.legal p hp) hq he]
  · intro hm; exact ⟨q, hm, rfl⟩

theorem idPc2ScAny_spec {d : Dim} {n : ℕ} {vacs : List IdPc} (h : LegalVacs d n vacs) {q : IdPc}
    (hq : LegalId d n q) : idPc2ScAny d n (vacIdSc d n vacs) q =
      if q ∈ vacs then -1 else idPc2Sc d n q - below (vacIdSc d n vacs) (idPc2Sc d n q) := by
  unfold idPc2ScAny
  by_cases h0 : (vacIdSc d n vacs).length = 0
  · rw [if_pos h0]
    have hv : vacs = [] := by rw [length_vacIdSc] at h0; exact List.length_eq_zero_iff.1 h0
    subst hv
    simp [vacIdSc, below]
  · rw [if_neg h0, vacSearchBisect_spec (vacIdSc_sorted h) (by omega)]
    simp only [mem_vacIdSc_iff h hq]

theorem buildOrbIdPc_eq {d : Dim} {n : ℕ} {vacs : List IdPc} (h : LegalVacs d n vacs) :
    buildOrbIdPc d n (vacIdSc d n vacs) = (quads d n).filter (fun q => decide (q ∉ vacs)) := by
  have h1 : buildOrbIdPc d n (vacIdSc d n vacs) = (quads d n).filter (fun q =>
      decide ((vacIdSc d n vacs).length = 0 ∨ vacSearchBisect (vacIdSc d n vacs) (idPc2Sc d n q) ≠ -1)) := by
    unfold buildOrbIdPc quads
    rw [List.filter_flatMap]
  rw [h1]
  apply List.filter_congr
  intro q hq
  rw [mem_quads] at hq
  rw [decide_eq_decide]
  by_cases h0 : (vacIdSc d n vacs).length = 0
  · have hv : vacs = [] := by rw [length_vacIdSc] at h0; exact List.length_eq_zero_iff.1 h0
    subst hv; simp [vacIdSc]
  · rw [vacSearchBisect_spec (vacIdSc_sorted h) (by omega)]
    simp only [mem_vacIdSc_iff h hq, h0, false_or]
    by_cases hm : q ∈ vacs
    · simp [hm]
    · simp only [hm, if_false, not_false_eq_true, iff_true]
      have hx := (idPc2Sc_range hq).1
      -- at most x vacancies lie below x
      have hle : (below (vacIdSc d n vacs) (idPc2Sc d n q) : ℤ) ≤ idPc2Sc d n q := by
        have hnd := (vacIdSc_nodup h).filter (fun v => decide (v < idPc2Sc d n q))
        have hc : below (vacIdSc d n vacs) (idPc2Sc d n q) =
            ((vacIdSc d n vacs).filter (fun v => decide (v < idPc2Sc d n q))).length := by
          rw [below, List.countP_eq_length_filter]
        have hsub : ((vacIdSc d n vacs).filter (fun v => decide (v < idPc2Sc d n q))) ⊆
            (List.range (idPc2Sc d n q).toNat).map (fun k : ℕ => (k : ℤ)) := by
          intro v hv
          simp only [List.mem_filter, decide_eq_true_eq, mem_vacIdSc] at hv
          obtain ⟨⟨p, hp, rfl⟩, hlt⟩ := hv
          have := (idPc2Sc_range (h.legal p hp)).1
          simp only [List.mem_map, List.mem_range]
          exact ⟨(idPc2Sc d n p).toNat, by omega, by omega⟩
        have := (List.subperm_of_subset hnd hsub).length_le
        rw [hc]; simp at this; omega
      omega

theorem take_filter_length {d : Dim} {n : ℕ} {vacs : List IdPc} (h : LegalVacs d n vacs) (k : ℕ)
    (hk : k ≤ (quads d n).length) :
    (((quads d n).take k).filter (fun q => decide (q ∉ vacs))).length + below (vacIdSc d n vacs) k = k := by
  have h1 : ((quads d n).take k).length = k := by simp [hk]
  have h2 := List.length_eq_length_filter_add (l := (quads d n).take k) (fun q => decide (q ∉ vacs))
  rw [h1] at h2
  have h3 : (((quads d n).take k).filter (fun q => !decide (q ∉ vacs))).length = below (vacIdSc d n vacs) k := by
    rw [below, List.countP_eq_length_filter]
    have hp : ((((quads d n).take k).filter (fun q => !decide (q ∉ vacs))).map (idPc2Sc d n)).Perm
        ((vacIdSc d n vacs).filter (fun v => decide (v < (k : ℤ)))) := by
      refine (List.perm_ext_iff_of_nodup ?_ ((vacIdSc_nodup h).filter _)).2 ?_
      · refine List.Nodup.map_on (fun x hx y hy he => ?_)
          (((quads_nodup d n).sublist (List.take_sublist _ _)).filter _)
        have hx' := (mem_quads d n x).1 (List.mem_of_mem_take (List.mem_of_mem_filter hx))
        have hy' := (mem_quads d n y).1 (List.mem_of_mem_take (List.mem_of_mem_filter hy))
        exact idPc2Sc_inj hx' hy' he
      · intro x
        simp only [List.mem_map, List.mem_filter, decide_eq_true_eq, mem_vacIdSc]
        constructor
        · rintro ⟨q, ⟨hq, hv⟩, rfl⟩
          simp at hv
          refine ⟨⟨q, hv, rfl⟩, ?_⟩
          obtain ⟨i, hi, rfl⟩ := List.mem_iff_getElem.1 hq
          simp only [List.length_take] at hi
          rw [List.getElem_take, quads_get]
          exact_mod_cast (by omega : i < k)
        · rintro ⟨⟨q, hq, rfl⟩, hlt⟩
          refine ⟨q, ⟨?_, by simpa using hq⟩, rfl⟩
          obtain ⟨i, hi, rfl⟩ := List.mem_iff_getElem.1 ((mem_quads d n q).2 (h.legal q hq))
          rw [quads_get] at hlt
          have hik : i < k := by exact_mod_cast hlt
          rw [List.mem_iff_getElem]
          exact ⟨i, by simp only [List.length_take]; omega, by rw [List.getElem_take]⟩
    have := hp.length_eq
    simpa using this
  omega

theorem buildOrbIdPc_get {d : Dim} {n : ℕ} {vacs : List IdPc} (h : LegalVacs d n vacs) {q : IdPc}
    (hq : LegalId d n q) (hv : q ∉ vacs) :
    0 ≤ idPc2ScAny d n (vacIdSc d n vacs) q ∧
    (buildOrbIdPc d n (vacIdSc d n vacs))[(idPc2ScAny d n (vacIdSc d n vacs) q).toNat]? = some q := by
  rw [idPc2ScAny_spec h hq, if_neg hv, buildOrbIdPc_eq h]
  obtain ⟨k, hk, rfl⟩ := List.mem_iff_getElem.1 ((mem_quads d n q).2 hq)
  rw [quads_get]
  have hlen := take_filter_length h k (le_of_lt hk)
  have hs : quads d n = (quads d n).take k ++ (quads d n)[k] :: (quads d n).drop (k + 1) := by
    rw [List.getElem_cons_drop, List.take_append_drop]
  constructor
  · omega
  have ht : ((k : ℤ) - (below (vacIdSc d n vacs) k : ℤ)).toNat =
      (((quads d n).take k).filter (fun q => decide (q ∉ vacs))).length := by omega
  rw [ht]
  conv_lhs => rw [hs]
  rw [List.filter_append, List.filter_cons_of_pos (by simpa using hv)]
  simp

theorem length_buildOrbIdPc {d : Dim} {n : ℕ} {vacs : List IdPc} (h : LegalVacs d n vacs) :
    (buildOrbIdPc d n (vacIdSc d n vacs)).length + vacs.length = d.prod * n := by
  have := take_filter_length h (quads d n).length (le_refl _)
  rw [List.take_length, ← buildOrbIdPc_eq h, below_eq_length, length_vacIdSc, length_quads] at this
  · exact this
  · intro v hv
    obtain ⟨p, hp, rfl⟩ := (mem_vacIdSc d n vacs v).1 hv
    rw [length_quads]; exact (idPc2Sc_range (h.legal p hp)).2

theorem mem_buildOrbIdPc {d : Dim} {n : ℕ} {vacs : List IdPc} (h : LegalVacs d n vacs) (q : IdPc) :
    q ∈ buildOrbIdPc d n (vacIdSc d n vacs) ↔ LegalId d n q ∧ q ∉ vacs := by
  rw [buildOrbIdPc_eq h, List.mem_filter, mem_quads]; simp

theorem buildOrbIdPc_nodup {d : Dim} {n : ℕ} {vacs : List IdPc} (h : LegalVacs d n vacs) :
    (buildOrbIdPc d n (vacIdSc d n vacs)).Nodup := by
  rw [buildOrbIdPc_eq h]; exact (quads_nodup d n).filter _

theorem buildOrbIdPc_index {d : Dim} {n : ℕ} {vacs : List IdPc} (h : LegalVacs d n vacs) (k : ℕ)
    (hk : k < (buildOrbIdPc d n (vacIdSc d n vacs)).length) :
    idPc2ScAny d n (vacIdSc d n vacs) ((buildOrbIdPc d n (vacIdSc d n vacs))[k]) = k := by
  have hm : (buildOrbIdPc d n (vacIdSc d n vacs))[k] ∈ buildOrbIdPc d n (vacIdSc d n vacs) :=
    List.getElem_mem _
  have hq := (mem_buildOrbIdPc h _).1 hm
  obtain ⟨h0, hg⟩ := buildOrbIdPc_get h hq.1 hq.2
  obtain ⟨hlt, he⟩ := List.getElem?_eq_some_iff.1 hg
  have := (buildOrbIdPc_nodup h).getElem_inj_iff.1 he
  omega

/-! ## Wrapping -/

theorem wrapUp_spec (n : ℕ) (hn : 0 < n) : ∀ (k : ℕ) (x : ℤ), (-x).toNat = k →
    wrapUp n x % n = x % n ∧ 0 ≤ wrapUp n x ∧ (0 ≤ x → wrapUp n x = x) ∧ (x < 0 → wrapUp n x < n) := by
  intro k
  induction k using Nat.strong_induction_on with
  | _ k ih =>
    intro x hk
    unfold wrapUp
    by_cases hx : x < 0
    · rw [if_pos ⟨hx, hn⟩]
      obtain ⟨h1, h2, h3, h4⟩ := ih (-(x + n)).toNat (by omega) (x + n) rfl
      refine ⟨by rw [h1]; simp, h2, fun h => absurd h (by omega), fun _ => ?_⟩
      rcases lt_or_ge (x + n) 0 with h | h
      · exact h4 h
      · rw [h3 h]; omega
    · rw [if_neg (by simp [hx])]
      exact ⟨rfl, by omega, fun _ => rfl, fun h => absurd h hx⟩

theorem wrapDown_spec (n : ℕ) (hn : 0 < n) : ∀ (k : ℕ) (x : ℤ), x.toNat = k → 0 ≤ x →
    wrapDown n x = x % n := by
  intro k
  induction k using Nat.strong_induction_on with
  | _ k ih =>
    intro x hk hx
    unfold wrapDown
    by_cases h : x ≥ n
    · rw [if_pos ⟨h, hn⟩, ih (x - n).toNat (by omega) (x - n) rfl (by omega)]
      simp
    · rw [if_neg (by simp [h]), Int.emod_eq_of_lt hx (by omega)]

theorem wrapPbc_true {n : ℕ} (hn : 0 < n) (x : ℤ) : wrapPbc x n true = x % n := by
  obtain ⟨h1, h2, -, -⟩ := wrapUp_spec n hn _ x rfl
  simp only [wrapPbc, Bool.true_eq_false, if_false]
  rw [wrapDown_spec n hn _ _ rfl h2, h1]

theorem wrapPbc_false (n : ℕ) (x : ℤ) : wrapPbc x n false = if 0 ≤ x ∧ x < n then x else -1 := by
  simp only [wrapPbc, if_true]
  split_ifs <;> omega

theorem fastDivUp_spec (n : ℕ) (hn : 0 < n) (x : ℤ) : ∀ (k : ℕ) (r b : ℤ), (x - b).toNat = k →
    b = r * n → b - n ≤ x → fastDivUp n x r b = x / n := by
  intro k
  induction k using Nat.strong_induction_on with
  | _ k ih =>
    intro r b hk hb hx
    unfold fastDivUp
    have hn' : (0 : ℤ) < n := by exact_mod_cast hn
    by_cases h1 : x < b
    · rw [if_pos h1]
      have hq : x = (x - (r - 1) * n) + n * (r - 1) := by ring
      rw [hq, Int.add_mul_ediv_left _ _ hn'.ne', Int.ediv_eq_zero_of_lt (by nlinarith) (by nlinarith)]
      ring
    · rw [if_neg h1]
      by_cases h2 : x = b
      · rw [if_pos h2, h2, hb, Int.mul_ediv_cancel _ hn'.ne']
      · rw [if_neg h2, if_pos hn]
        exact ih (x - (b + n)).toNat (by omega) _ _ rfl (by rw [hb]; ring) (by omega)

theorem fastDivDown_spec (n : ℕ) (hn : 0 < n) (x : ℤ) : ∀ (k : ℕ) (r b : ℤ), (b - x).toNat = k →
    b = r * n → x < b + n → fastDivDown n x r b = x / n := by
  intro k
  induction k using Nat.strong_induction_on with
  | _ k ih =>
    intro r b hk hb hx
    unfold fastDivDown
    have hn' : (0 : ℤ) < n := by exact_mod_cast hn
    by_cases h1 : x ≥ b
    · rw [if_pos h1]
      have hq : x = (x - r * n) + n * r := by ring
      rw [hq, Int.add_mul_ediv_left _ _ hn'.ne', Int.ediv_eq_zero_of_lt (by nlinarith) (by nlinarith)]
      ring
    · rw [if_neg h1, if_pos hn]
      exact ih ((b - n) - x).toNat (by omega) _ _ rfl (by rw [hb]; ring) (by omega)

theorem fastDiv_eq {n : ℕ} (hn : 0 < n) (x : ℤ) : fastDiv x n = x / n := by
  unfold fastDiv
  split_ifs with h1 h2
  · rw [Int.ediv_eq_zero_of_lt h1.1 h1.2]
  · exact fastDivUp_spec n hn x _ _ _ rfl (by simp) (by omega)
  · exact fastDivDown_spec n hn x _ _ _ rfl (by simp) (by omega)

end Verif

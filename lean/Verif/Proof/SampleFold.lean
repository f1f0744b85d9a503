import Verif.Proof.FoldChar
import Verif.Proof.SuperHop
import Verif.Proof.Advanced
import Verif.Props.ExtendSpectrum

/-! # Plane waves on the sites of a periodic supercell -/

namespace Verif

open Props

/-- The size of a supercell as a cell index. -/
def dimCell (d : Dim) : Cell := (d.a, d.b, d.c)

/-- The primitive cell of a site. -/
def cellOf (q : IdPc) : Cell := (q.1, q.2.1, q.2.2.1)

/-- The plane wave `exp(2πi (m/D)·(I+τ))`. -/
noncomputable def boxWave (D m I : Cell) (τ : Vec3 ℝ) : ℂ :=
  eiPhase (2 * Real.pi * ∑ x, ((cellAt m x : ℝ) / cellAt D x) * (cellAt I x + τ x))

theorem boxWave_orth {D : Cell} (hd : 1 ≤ D.1 ∧ 1 ≤ D.2.1 ∧ 1 ≤ D.2.2) {N n : ℕ} (hN : (N : ℤ) = D.1 * D.2.1 * D.2.2 * n)
    (dec : Fin N → Cell × Fin n) (hdec1 : ∀ a, InBox D (dec a).1)
    (hdec2 : ∀ a : Fin N, (a : ℤ) = extIdx D n (dec a).1 ((dec a).2 : ℕ)) (τ : Fin n → Vec3 ℝ) (m m' : boxSet D) (j : Fin n) :
    ∑ a with (dec a).2 = j, star (boxWave D m (dec a).1 (τ (dec a).2)) * boxWave D m' (dec a).1 (τ (dec a).2) =
      if m = m' then ((D.1 * D.2.1 * D.2.2 : ℤ) : ℂ) else 0 := by
  have hdx : ∀ x, (cellAt D x : ℝ) ≠ 0 := by
    intro x
    have : cellAt D x ≠ 0 := by fin_cases x <;> simp [cellAt] <;> omega
    exact_mod_cast this
  have hinj : ∀ (a : Fin N) I (i : Fin n), InBox D I → (a : ℤ) = extIdx D n I (i : ℕ) → dec a = (I, i) := by
    intro a I i hI h
    obtain ⟨e1, e2⟩ := extIdx_inj (hdec1 a) hI ⟨by omega, by have := (dec a).2.2; omega⟩ ⟨by omega, by have := i.2; omega⟩
      ((hdec2 a).symm.trans h)
    refine Prod.ext e1 (Fin.ext ?_)
    exact_mod_cast e2
  have hterm : ∀ I, star (boxWave D m I (τ j)) * boxWave D m' I (τ j) =
      eiPhase (2 * Real.pi * (∑ x, ((cellAt (m' : Cell) x : ℝ) - cellAt (m : Cell) x) / cellAt D x * τ j x)) *
        eiPhase (2 * Real.pi * ∑ x, ((cellAt (m' : Cell) x : ℝ) - cellAt (m : Cell) x) / cellAt D x * cellAt I x) := by
    intro I
    unfold boxWave
    rw [← eiPhase_neg, ← eiPhase_add, ← eiPhase_add]
    congr 1
    simp only [Fin.sum_univ_three]
    ring
  have hsum : ∑ a with (dec a).2 = j, star (boxWave D m (dec a).1 (τ (dec a).2)) * boxWave D m' (dec a).1 (τ (dec a).2) =
      ∑ I ∈ boxSet D, star (boxWave D m I (τ j)) * boxWave D m' I (τ j) := by
    refine Finset.sum_bij (fun a _ => (dec a).1) ?_ ?_ ?_ ?_
    · intro a _; exact (mem_boxSet _ _).2 (hdec1 a)
    · intro a ha b hb h
      have e1 := (Finset.mem_filter.1 ha).2
      have e2 := (Finset.mem_filter.1 hb).2
      apply Fin.ext
      have e3 : (a : ℤ) = (b : ℤ) := by
        rw [hdec2 a, hdec2 b, e1, e2, h]
      omega
    · intro I hI
      have hI' := (mem_boxSet _ _).1 hI
      have hrg := extIdx_range hI' (i := ((j : ℕ) : ℤ)) (n := n) ⟨by omega, by have := j.2; omega⟩
      have hlt : (extIdx D n I (j : ℕ)).toNat < N := by omega
      have := hinj ⟨_, hlt⟩ I j hI' (by simp only; omega)
      exact ⟨⟨_, hlt⟩, Finset.mem_filter.2 ⟨Finset.mem_univ _, by rw [this]⟩, by rw [this]⟩
    · intro a ha
      rw [(Finset.mem_filter.1 ha).2]
  rw [hsum, Finset.sum_congr rfl fun I _ => hterm I, ← Finset.mul_sum]
  by_cases hm : m = m'
  · subst hm
    rw [if_pos rfl]
    have hc := card_boxSet D hd
    simp only [sub_self, zero_div, zero_mul, Finset.sum_const_zero, mul_zero, eiPhase_zero, one_mul, Finset.sum_const,
      nsmul_eq_mul, mul_one]
    rw [← hc]
    push_cast
    rfl
  · rw [if_neg hm]
    have hne : ∃ x, cellAt (m : Cell) x ≠ cellAt (m' : Cell) x := by
      by_contra hcon
      push Not at hcon
      exact hm (Subtype.ext (Prod.ext (hcon 0) (Prod.ext (hcon 1) (hcon 2))))
    obtain ⟨x, hx⟩ := hne
    have hb := (mem_boxSet _ _).1 m.2
    have hb' := (mem_boxSet _ _).1 m'.2
    rw [wave_sum_zero (boxLat D) (boxSet D) (box_rep hd) _ ?_ (if x = 0 then 1 else 0, if x = 1 then 1 else 0, if x = 2 then 1 else 0) ?_,
      mul_zero]
    · rintro c ⟨⟨z0, e0⟩, ⟨z1, e1⟩, ⟨z2, e2⟩⟩
      refine ⟨(cellAt (m' : Cell) 0 - cellAt (m : Cell) 0) * z0 + (cellAt (m' : Cell) 1 - cellAt (m : Cell) 1) * z1 +
        (cellAt (m' : Cell) 2 - cellAt (m : Cell) 2) * z2, ?_⟩
      have g0 := hdx 0
      have g1 := hdx 1
      have g2 := hdx 2
      have f0 : cellAt c 0 = cellAt D 0 * z0 := e0
      have f1 : cellAt c 1 = cellAt D 1 * z1 := e1
      have f2 : cellAt c 2 = cellAt D 2 * z2 := e2
      rw [Fin.sum_univ_three, f0, f1, f2]
      push_cast
      field_simp
    · intro z hz
      have hdp : 0 < cellAt D x := by fin_cases x <;> simp [cellAt] <;> omega
      have hrange : |cellAt (m' : Cell) x - cellAt (m : Cell) x| < cellAt D x := by
        rw [abs_lt]
        obtain ⟨⟨u1, u2⟩, ⟨u3, u4⟩, ⟨u5, u6⟩⟩ := hb
        obtain ⟨⟨v1, v2⟩, ⟨v3, v4⟩, ⟨v5, v6⟩⟩ := hb'
        fin_cases x <;> simp [cellAt] <;> omega
      have hval : ((cellAt (m' : Cell) x : ℝ) - cellAt (m : Cell) x) / cellAt D x = z := by
        rw [← hz]
        fin_cases x <;> simp [Fin.sum_univ_three, cellAt]
      rw [div_eq_iff (hdx x)] at hval
      have hval' : cellAt (m' : Cell) x - cellAt (m : Cell) x = z * cellAt D x := by exact_mod_cast hval
      rw [hval', abs_mul, abs_of_pos hdp] at hrange
      have hz0 : z = 0 := by
        by_contra hz0
        have := Int.one_le_abs hz0
        nlinarith
      rw [hz0, zero_mul, sub_eq_zero] at hval'
      exact hx hval'.symm

/-- A wave of the box has its period. -/
theorem boxWave_mod {D : Cell} (hd : 1 ≤ D.1 ∧ 1 ≤ D.2.1 ∧ 1 ≤ D.2.2) (m c : Cell) (τ : Vec3 ℝ) :
    boxWave D m (c.1 % D.1, c.2.1 % D.2.1, c.2.2 % D.2.2) τ = boxWave D m c τ := by
  have e : ∀ x, (cellAt c x : ℝ) = cellAt (c.1 % D.1, c.2.1 % D.2.1, c.2.2 % D.2.2) x +
      cellAt D x * ((cellAt c x / cellAt D x : ℤ) : ℝ) := by
    intro x
    have : cellAt c x = cellAt (c.1 % D.1, c.2.1 % D.2.1, c.2.2 % D.2.2) x + cellAt D x * (cellAt c x / cellAt D x) := by
      fin_cases x
      · exact (Int.emod_add_mul_ediv c.1 D.1).symm
      · exact (Int.emod_add_mul_ediv c.2.1 D.2.1).symm
      · exact (Int.emod_add_mul_ediv c.2.2 D.2.2).symm
    exact_mod_cast congrArg (Int.cast : ℤ → ℝ) this
  have hdx : ∀ x, (cellAt D x : ℝ) ≠ 0 := by
    intro x
    have : cellAt D x ≠ 0 := by fin_cases x <;> simp [cellAt] <;> omega
    exact_mod_cast this
  unfold boxWave
  have : 2 * Real.pi * ∑ x, ((cellAt m x : ℝ) / cellAt D x) * (cellAt c x + τ x) =
      2 * Real.pi * ∑ x, ((cellAt m x : ℝ) / cellAt D x) * (cellAt (c.1 % D.1, c.2.1 % D.2.1, c.2.2 % D.2.2) x + τ x) +
      2 * Real.pi * ((∑ x, cellAt m x * (cellAt c x / cellAt D x) : ℤ) : ℝ) := by
    rw [← mul_add]
    congr 1
    push_cast
    rw [← Finset.sum_add_distrib]
    refine Finset.sum_congr rfl fun x _ => ?_
    rw [e x]
    have := hdx x
    field_simp
    ring
  rw [this, eiPhase_add, eiPhase_int, mul_one]

/-! ### Sums over the images of the hoppings -/

section Sums

variable {E : Type*} {d : Dim} {pbc : Pbc} {sites : List IdPc} {hops : List (Cell × Pair × E)}

/-- Where a hopping from `q` ends in a periodic supercell. -/
def ketWrap (d : Dim) (q : IdPc) (t : Cell × Pair × E) : IdPc :=
  ((q.1 + t.1.1) % d.a, (q.2.1 + t.1.2.1) % d.b, (q.2.2.1 + t.1.2.2) % d.c, t.2.1.2)

/-- Where a hopping ending at `k` starts in a periodic supercell. -/
def braWrap (d : Dim) (k : IdPc) (t : Cell × Pair × E) : IdPc :=
  ((k.1 - t.1.1) % d.a, (k.2.1 - t.1.2.1) % d.b, (k.2.2.1 - t.1.2.2) % d.c, t.2.1.1)

theorem sum_triples (hket : ∀ q ∈ sites, ∀ t ∈ hops, ketImage d pbc q t = some (ketWrap d q t))
    (g : IdPc × IdPc × (Cell × Pair × E) → ℂ) :
    ((triples d pbc [] sites hops).map g).sum =
      (sites.map fun q => (hops.map fun t => if q.2.2.2 = t.2.1.1 then g (q, ketWrap d q t, t) else 0).sum).sum := by
  unfold triples
  rw [List.map_flatMap, List.flatMap, List.sum_flatten, List.map_map]
  refine congrArg List.sum (List.map_congr_left fun q hq => ?_)
  simp only [Function.comp]
  have h : ∀ t ∈ hops, ketImage d pbc q t = some (ketWrap d q t) := hket q hq
  clear hket
  induction hops with
  | nil => rfl
  | cons t l ih =>
    have ih := ih fun u hu => h u (List.mem_cons_of_mem _ hu)
    have h0 := h t List.mem_cons_self
    simp only [List.filterMap_cons, List.map_cons, List.sum_cons, h0, List.not_mem_nil, if_false] at ih ⊢
    by_cases c : q.2.2.2 = t.2.1.1
    · simp only [c, if_true, List.map_cons, List.sum_cons] at ih ⊢
      rw [ih]
    · simp only [c, if_false, zero_add] at ih ⊢
      exact ih

theorem bra_sum (hket : ∀ q ∈ sites, ∀ t ∈ hops, ketImage d pbc q t = some (ketWrap d q t)) (hn : sites.Nodup)
    {A : IdPc} (hA : A ∈ sites) (f : IdPc × IdPc × (Cell × Pair × E) → ℂ) :
    ((triples d pbc [] sites hops).map fun x => if x.1 = A then f x else 0).sum =
      (hops.map fun t => if A.2.2.2 = t.2.1.1 then f (A, ketWrap d A t, t) else 0).sum := by
  rw [sum_triples hket, ← List.sum_toFinset _ hn, Finset.sum_eq_single A]
  · simp
  · intro q _ hq
    simp [hq]
  · intro h
    exact absurd (List.mem_toFinset.2 hA) h

theorem sum_list_comm {α β : Type*} (s : Finset α) (l : List β) (f : α → β → ℂ) :
    ∑ a ∈ s, (l.map (f a)).sum = (l.map fun b => ∑ a ∈ s, f a b).sum := by
  induction l with
  | nil => simp
  | cons b l ih => simp only [List.map_cons, List.sum_cons, Finset.sum_add_distrib, ih]

theorem ketWrap_iff (hd : d.Pos) {n : ℕ} {q A : IdPc} (hq : LegalId d n q) (hA : LegalId d n A) (t : Cell × Pair × E) :
    (q.2.2.2 = t.2.1.1 ∧ ketWrap d q t = A) ↔ (t.2.1.2 = A.2.2.2 ∧ q = braWrap d A t) := by
  obtain ⟨q1, q2, q3, q4⟩ := q
  obtain ⟨a1, a2, a3, a4⟩ := A
  obtain ⟨⟨u1, v1⟩, ⟨u2, v2⟩, ⟨u3, v3⟩, -⟩ := hq
  obtain ⟨⟨x1, y1⟩, ⟨x2, y2⟩, ⟨x3, y3⟩, -⟩ := hA
  have key : ∀ (n : ℕ) (q a r : ℤ), 0 ≤ q → q < n → 0 ≤ a → a < n → ((q + r) % n = a ↔ q = (a - r) % n) := by
    intro n q a r h1 h2 h3 h4
    constructor
    · rintro rfl
      rw [Int.emod_sub_emod, add_sub_cancel_right, Int.emod_eq_of_lt h1 h2]
    · rintro rfl
      rw [Int.emod_add_emod, sub_add_cancel, Int.emod_eq_of_lt h3 h4]
  simp only [ketWrap, braWrap, Prod.mk.injEq] at u1 v1 u2 v2 u3 v3 x1 y1 x2 y2 x3 y3 ⊢
  rw [key d.a q1 a1 _ u1 v1 x1 y1, key d.b q2 a2 _ u2 v2 x2 y2, key d.c q3 a3 _ u3 v3 x3 y3]
  tauto

theorem ket_sum (hd : d.Pos) {n : ℕ} (hket : ∀ q ∈ sites, ∀ t ∈ hops, ketImage d pbc q t = some (ketWrap d q t)) (hn : sites.Nodup)
    (hs : ∀ q, q ∈ sites ↔ LegalId d n q) (hr : HopsInRange n hops)
    {A : IdPc} (hA : A ∈ sites) (f : IdPc × IdPc × (Cell × Pair × E) → ℂ) :
    ((triples d pbc [] sites hops).map fun x => if x.2.1 = A then f x else 0).sum =
      (hops.map fun t => if t.2.1.2 = A.2.2.2 then f (braWrap d A t, A, t) else 0).sum := by
  rw [sum_triples hket, ← List.sum_toFinset _ hn, sum_list_comm]
  refine congrArg List.sum (List.map_congr_left fun t ht => ?_)
  have hA' := (hs A).1 hA
  have hf : ∀ q ∈ sites.toFinset, (if q.2.2.2 = t.2.1.1 then (if ketWrap d q t = A then f (q, ketWrap d q t, t) else 0) else 0) =
      if q = braWrap d A t then (if t.2.1.2 = A.2.2.2 then f (q, A, t) else 0) else 0 := by
    intro q hq
    have hq' := (hs q).1 (List.mem_toFinset.1 hq)
    have hi := ketWrap_iff hd hq' hA' t
    by_cases h : q.2.2.2 = t.2.1.1 ∧ ketWrap d q t = A
    · have h2 := hi.1 h
      rw [if_pos h.1, if_pos h.2, if_pos h2.2, if_pos h2.1, h.2]
    · have h2 : ¬ (t.2.1.2 = A.2.2.2 ∧ q = braWrap d A t) := fun h2 => h (hi.2 h2)
      by_cases h3 : q.2.2.2 = t.2.1.1
      · rw [if_pos h3, if_neg fun h4 => h ⟨h3, h4⟩]
        by_cases h5 : q = braWrap d A t
        · rw [if_pos h5, if_neg fun h6 => h2 ⟨h6, h5⟩]
        · rw [if_neg h5]
      · rw [if_neg h3]
        by_cases h5 : q = braWrap d A t
        · rw [if_pos h5, if_neg fun h6 => h2 ⟨h6, h5⟩]
        · rw [if_neg h5]
  have hmem : braWrap d A t ∈ sites.toFinset := by
    rw [List.mem_toFinset, hs]
    have h1 := hd.a; have h2 := hd.b; have h3 := hd.c
    exact ⟨⟨Int.emod_nonneg _ (by omega), Int.emod_lt_of_pos _ (by omega)⟩,
      ⟨Int.emod_nonneg _ (by omega), Int.emod_lt_of_pos _ (by omega)⟩,
      ⟨Int.emod_nonneg _ (by omega), Int.emod_lt_of_pos _ (by omega)⟩, (hr t ht).1⟩
  rw [Finset.sum_congr rfl hf, Finset.sum_ite_eq' sites.toFinset (braWrap d A t), if_pos hmem]

end Sums

end Verif

import Verif.Proof.SampleFold
import Verif.Props.Sample
import Verif.Props.Csr
import Verif.Props.SampleHam
import Verif.Props.OrbId
import Verif.Props.PrintHk

/-! # Property C123: a periodic sample has the bands of its primitive cell -/

namespace Verif.Props

open PrimCell

variable {Λ : Type*}

/-- The sample closes on itself: every direction is periodic, or it is one cell thick and no hopping leaves it. -/
def ClosedBox {E : Type*} (d : Dim) (pbc : Pbc) (hops : List (Cell × Pair × E)) : Prop :=
  (pbc.1 = true ∨ (d.a = 1 ∧ ∀ t ∈ hops, t.1.1 = 0)) ∧ (pbc.2.1 = true ∨ (d.b = 1 ∧ ∀ t ∈ hops, t.1.2.1 = 0)) ∧
    (pbc.2.2 = true ∨ (d.c = 1 ∧ ∀ t ∈ hops, t.1.2.2 = 0))

theorem ClosedBox.ket {E : Type*} {d : Dim} {pbc : Pbc} {hops : List (Cell × Pair × E)} (h : ClosedBox d pbc hops) {n : ℕ} {q : IdPc}
    (hq : LegalId d n q) {t : Cell × Pair × E} (ht : t ∈ hops) : ketImage d pbc q t = some (ketWrap d q t) := by
  have key : ∀ (b : Bool) (m : ℕ) (x r : ℤ), 0 ≤ x → x < m → (b = true ∨ (m = 1 ∧ r = 0)) → wrapImage b m (x + r) = some ((x + r) % m) := by
    intro b m x r h0 h1 hb
    unfold wrapImage
    rcases hb with rfl | ⟨rfl, rfl⟩
    · simp
    · have : x = 0 := by omega
      subst this
      cases b <;> simp
  unfold ketImage ketWrap
  rw [key _ _ _ _ hq.1.1 hq.1.2 (h.1.imp_right fun u => ⟨u.1, u.2 t ht⟩),
    key _ _ _ _ hq.2.1.1 hq.2.1.2 (h.2.1.imp_right fun u => ⟨u.1, u.2 t ht⟩),
    key _ _ _ _ hq.2.2.1.1 hq.2.2.1.2 (h.2.2.imp_right fun u => ⟨u.1, u.2 t ht⟩)]

theorem sum_filter_ite {α : Type*} (l : List α) (p : α → Prop) [DecidablePred p] (f : α → ℂ) :
    ((l.filter fun x => p x).map f).sum = (l.map fun x => if p x then f x else 0).sum := by
  induction l with
  | nil => rfl
  | cons x l ih => by_cases h : p x <;> simp [List.filter_cons, h, ih]

theorem sum_pick {N : ℕ} {α : Type*} (l : List α) (j : α → ℤ) (p : α → Prop) [DecidablePred p] (V : α → ℂ) (w : Fin N → ℂ) (W : α → ℂ)
    (h : ∀ x ∈ l, ∃ b : Fin N, j x = (b : ℕ) ∧ w b = W x) :
    ∑ b : Fin N, (l.map fun x => if p x ∧ j x = (b : ℕ) then V x else 0).sum * w b =
      (l.map fun x => if p x then V x * W x else 0).sum := by
  induction l with
  | nil => simp
  | cons x l ih =>
    simp only [List.map_cons, List.sum_cons, add_mul, Finset.sum_add_distrib]
    rw [ih fun y hy => h y (List.mem_cons_of_mem _ hy)]
    congr 1
    obtain ⟨b0, h1, h2⟩ := h x List.mem_cons_self
    rw [Finset.sum_eq_single b0]
    · by_cases c : p x
      · rw [if_pos ⟨c, h1⟩, if_pos c, h2]
      · rw [if_neg fun u => c u.1, if_neg c, zero_mul]
    · intro b _ hb
      rw [if_neg, zero_mul]
      rintro ⟨-, h3⟩
      rw [h1] at h3
      exact hb (Fin.ext (by omega))
    · intro hb; exact absurd (Finset.mem_univ _) hb

/-- Matrix-vector product with a Bloch Hamiltonian, term by term. -/
theorem setHam_mulVec {n : ℕ} (pos : ℤ → Vec3 ℝ) (eng : List ℝ) (hlen : eng.length = n) (hops : List (Cell × Pair × ℂ))
    (hr : HopsInRange n hops) (k : Vec3 ℝ) (v : ℤ → ℂ) (i : Fin n) :
    ∑ j : Fin n, setHam pos eng hops 1 k IMat.zero (i : ℕ) (j : ℕ) * v (j : ℕ) =
      ((eng.getD i 0 : ℝ) : ℂ) * v (i : ℕ) +
      (hops.map fun t => if ((i : ℕ) : ℤ) = t.2.1.1 then t.2.2 * eiPhase (hopPhase pos 1 k t.1 t.2.1.1 t.2.1.2) * v t.2.1.2 else 0).sum +
      (hops.map fun t => if t.2.1.2 = ((i : ℕ) : ℤ) then star (t.2.2 * eiPhase (hopPhase pos 1 k t.1 t.2.1.1 t.2.1.2)) * v t.2.1.1
        else 0).sum := by
  simp only [setHam_apply, add_mul, Finset.sum_add_distrib]
  rw [add_assoc]
  congr 1
  · rw [Finset.sum_eq_single i]
    · rw [setDiag_apply, if_pos ⟨rfl, by omega, by have := i.2; omega⟩]
      simp
    · intro j _ hj
      rw [setDiag_apply, if_neg, zero_mul]
      rintro ⟨h, -⟩
      exact hj (Fin.ext (by omega))
    · intro h; exact absurd (Finset.mem_univ _) h
  · induction hops with
    | nil => simp
    | cons t l ih =>
      have ih := ih fun u hu => hr u (List.mem_cons_of_mem _ hu)
      simp only [List.map_cons, List.sum_cons, add_mul, Finset.sum_add_distrib]
      rw [ih]
      obtain ⟨⟨i0, i1⟩, ⟨j0, j1⟩⟩ := hr t List.mem_cons_self
      have : ∑ j : Fin n, hopTerm pos 1 k (i : ℕ) (j : ℕ) t * v (j : ℕ) =
          (if ((i : ℕ) : ℤ) = t.2.1.1 then t.2.2 * eiPhase (hopPhase pos 1 k t.1 t.2.1.1 t.2.1.2) * v t.2.1.2 else 0) +
          (if t.2.1.2 = ((i : ℕ) : ℤ) then star (t.2.2 * eiPhase (hopPhase pos 1 k t.1 t.2.1.1 t.2.1.2)) * v t.2.1.1 else 0) := by
        obtain ⟨R, ⟨a, b⟩, e⟩ := t
        simp only at i0 i1 j0 j1
        lift a to ℕ using i0
        lift b to ℕ using j0
        have ha : a < n := by omega
        have hb : b < n := by omega
        simp only [hopTerm, add_mul, Finset.sum_add_distrib, Prod.mk.injEq]
        congr 1
        · rw [Finset.sum_eq_single ⟨b, hb⟩]
          · by_cases c : ((i : ℕ) : ℤ) = a
            · rw [if_pos ⟨c.symm, rfl⟩, if_pos c, c]
            · rw [if_neg fun u => c u.1.symm, if_neg c, zero_mul]
          · intro j _ hj
            rw [if_neg, zero_mul]
            rintro ⟨-, h⟩
            exact hj (Fin.ext (by simp only; omega))
          · intro h; exact absurd (Finset.mem_univ _) h
        · rw [Finset.sum_eq_single ⟨a, ha⟩]
          · by_cases c : (b : ℤ) = ((i : ℕ) : ℤ)
            · rw [if_pos ⟨rfl, c⟩, if_pos c, c]
            · rw [if_neg fun u => c u.2, if_neg c, zero_mul]
          · intro j _ hj
            rw [if_neg, zero_mul]
            rintro ⟨h, -⟩
            exact hj (Fin.ext (by simp only; omega))
          · intro h; exact absurd (Finset.mem_univ _) h
      rw [this]
      ring

/-- Fractional displacement, in units of the vectors of the sample, of a primitive hopping. -/
noncomputable def fracBond {E : Type*} (D : Cell) (pos : ℤ → Vec3 ℝ) (t : Cell × Pair × E) : Vec3 ℝ :=
  fun x => ((cellAt t.1 x : ℝ) + pos t.2.1.2 x - pos t.2.1.1 x) / cellAt D x

/-- A wave at the end of a hopping. -/
theorem boxWave_ket (d : Dim) (hd : d.Pos) (m : Cell) (pos : ℤ → Vec3 ℝ) (K : Vec3 ℝ) (q : IdPc) (t : Cell × Pair × ℂ)
    (hq : q.2.2.2 = t.2.1.1) :
    eiPhase (2 * Real.pi * ∑ x, K x * fracBond (dimCell d) pos t x) * boxWave (dimCell d) m (cellOf (ketWrap d q t)) (pos t.2.1.2) =
      boxWave (dimCell d) m (cellOf q) (pos q.2.2.2) *
        eiPhase (hopPhase pos 1 (fun x => (K x + cellAt m x) / cellAt (dimCell d) x) t.1 t.2.1.1 t.2.1.2) := by
  have h1 : boxWave (dimCell d) m (cellOf (ketWrap d q t)) (pos t.2.1.2) =
      boxWave (dimCell d) m (cellOf q + t.1) (pos t.2.1.2) := by
    rw [← boxWave_mod (D := dimCell d) ⟨by have := hd.a; simp only [dimCell]; omega, by have := hd.b; simp only [dimCell]; omega,
      by have := hd.c; simp only [dimCell]; omega⟩ m (cellOf q + t.1)]
    rfl
  have hdx : ∀ x, (cellAt (dimCell d) x : ℝ) ≠ 0 := by
    intro x
    have : cellAt (dimCell d) x ≠ 0 := by
      have := hd.a; have := hd.b; have := hd.c
      fin_cases x <;> simp [cellAt, dimCell] <;> omega
    exact_mod_cast this
  rw [h1, hq]
  unfold boxWave
  rw [← eiPhase_add, ← eiPhase_add]
  congr 1
  unfold hopPhase kDotR fracBond
  rw [if_pos rfl, ← mul_add, ← mul_add]
  congr 1
  have g0 := hdx 0
  have g1 := hdx 1
  have g2 := hdx 2
  have e : ∀ x, (cellAt (cellOf q + t.1) x : ℝ) = cellAt (cellOf q) x + cellAt t.1 x := by
    intro x
    have : cellAt (cellOf q + t.1) x = cellAt (cellOf q) x + cellAt t.1 x := by fin_cases x <;> rfl
    exact_mod_cast this
  have c0 : (t.1.1 : ℝ) = cellAt t.1 0 := rfl
  have c1 : (t.1.2.1 : ℝ) = cellAt t.1 1 := rfl
  have c2 : (t.1.2.2 : ℝ) = cellAt t.1 2 := rfl
  simp only [Fin.sum_univ_three, e, c0, c1, c2]
  field_simp
  ring

theorem boxWave_bra (d : Dim) (hd : d.Pos) {n : ℕ} (m : Cell) (pos : ℤ → Vec3 ℝ) (K : Vec3 ℝ) (A : IdPc) (hA : LegalId d n A)
    (t : Cell × Pair × ℂ) (hj : t.2.1.2 = A.2.2.2) :
    star (eiPhase (2 * Real.pi * ∑ x, K x * fracBond (dimCell d) pos t x)) *
        boxWave (dimCell d) m (cellOf (braWrap d A t)) (pos t.2.1.1) =
      boxWave (dimCell d) m (cellOf A) (pos A.2.2.2) *
        star (eiPhase (hopPhase pos 1 (fun x => (K x + cellAt m x) / cellAt (dimCell d) x) t.1 t.2.1.1 t.2.1.2)) := by
  have h := boxWave_ket d hd m pos K (braWrap d A t) t rfl
  have hk : ketWrap d (braWrap d A t) t = A := by
    have key : ∀ (n : ℕ) (a r : ℤ), 0 ≤ a → a < n → ((a - r) % n + r) % n = a := by
      intro n a r h3 h4
      rw [Int.emod_add_emod, sub_add_cancel, Int.emod_eq_of_lt h3 h4]
    obtain ⟨⟨x1, y1⟩, ⟨x2, y2⟩, ⟨x3, y3⟩, -⟩ := hA
    exact Prod.ext (key _ _ _ x1 y1) (Prod.ext (key _ _ _ x2 y2) (Prod.ext (key _ _ _ x3 y3) hj))
  rw [hk, hj] at h
  have hb : (braWrap d A t).2.2.2 = t.2.1.1 := rfl
  rw [hb] at h
  set P := eiPhase (2 * Real.pi * ∑ x, K x * fracBond (dimCell d) pos t x) with hP
  set Q := eiPhase (hopPhase pos 1 (fun x => (K x + cellAt m x) / cellAt (dimCell d) x) t.1 t.2.1.1 t.2.1.2) with hQ
  have p1 : P * star P = 1 := eiPhase_mul_star _
  have q1 : Q * star Q = 1 := eiPhase_mul_star _
  have hQ' : eiPhase (hopPhase pos 1 (fun x => (K x + cellAt m x) / cellAt (dimCell d) x) t.1 t.2.1.1 A.2.2.2) = Q := by
    rw [hQ, hj]
  rw [hQ'] at h
  linear_combination (-star P * star Q) * h - star P * boxWave (dimCell d) m (cellOf (braWrap d A t)) (pos t.2.1.1) * q1 +
    star Q * boxWave (dimCell d) m (cellOf A) (pos A.2.2.2) * p1

theorem idx_ext (d : Dim) (n : ℕ) (q : IdPc) : idPc2Sc d n q = extIdx (dimCell d) n (cellOf q) q.2.2.2 := by
  unfold idPc2Sc extIdx dimCell cellOf
  ring

/-- The spectrum of the matrix assembled from the images of the primitive hoppings. -/
theorem images_charpoly {d : Dim} (hd : d.Pos) {pbc : Pbc} {n : ℕ} {hops : List (Cell × Pair × ℂ)} (hr : HopsInRange n hops)
    (hc : ClosedBox d pbc hops) (eng : List ℝ) (hlen : eng.length = n) (pos : ℤ → Vec3 ℝ) (K : Vec3 ℝ)
    (sites : List IdPc) (hsn : sites.Nodup) (hsm : ∀ q, q ∈ sites ↔ LegalId d n q) (M : ℤ → ℤ → ℂ)
    (hM : ∀ q ∈ sites, ∀ k ∈ sites, M (idPc2Sc d n q) (idPc2Sc d n k) = (if q = k then ((eng.getD q.2.2.2.toNat 0 : ℝ) : ℂ) else 0) +
      ((triples d pbc [] sites hops).map fun x => if idPc2Sc d n x.1 = idPc2Sc d n q ∧ idPc2Sc d n x.2.1 = idPc2Sc d n k then
        x.2.2.2.2 * eiPhase (2 * Real.pi * ∑ y, K y * fracBond (dimCell d) pos x.2.2 y) else 0).sum +
      star ((triples d pbc [] sites hops).map fun x => if idPc2Sc d n x.1 = idPc2Sc d n k ∧ idPc2Sc d n x.2.1 = idPc2Sc d n q then
        x.2.2.2.2 * eiPhase (2 * Real.pi * ∑ y, K y * fracBond (dimCell d) pos x.2.2 y) else 0).sum) :
    (toMatrix (d.a * d.b * d.c * n) M).charpoly =
      ∏ m ∈ Finset.Ico 0 (d.a : ℤ) ×ˢ Finset.Ico 0 (d.b : ℤ) ×ˢ Finset.Ico 0 (d.c : ℤ),
        (toMatrix n (setHam pos eng hops 1 (fun x => (K x + cellAt m x) / cellAt (dimCell d) x) IMat.zero)).charpoly := by
  have hD : 1 ≤ (dimCell d).1 ∧ 1 ≤ (dimCell d).2.1 ∧ 1 ≤ (dimCell d).2.2 := by
    have := hd.a; have := hd.b; have := hd.c
    refine ⟨?_, ?_, ?_⟩ <;> simp only [dimCell] <;> omega
  have hN : ((d.a * d.b * d.c * n : ℕ) : ℤ) = (dimCell d).1 * (dimCell d).2.1 * (dimCell d).2.2 * n := by
    simp only [dimCell]; push_cast; ring
  generalize d.a * d.b * d.c * n = N at hN ⊢
  -- decomposition of the orbital numbers
  have hdec : ∀ a : Fin N, ∃ q : Cell × Fin n, InBox (dimCell d) q.1 ∧ (a : ℤ) = extIdx (dimCell d) n q.1 (q.2 : ℕ) := by
    intro a
    obtain ⟨I, i, hI, hi, e⟩ := extIdx_surj (d := dimCell d) (n := n) (a := (a : ℕ)) (by omega) (by
      have := a.2; omega) hD (by omega)
    refine ⟨(I, ⟨i.toNat, by omega⟩), hI, ?_⟩
    simp only
    rw [Int.toNat_of_nonneg hi.1]
    exact e
  choose dec hdec1 hdec2 using hdec
  let site : Fin N → IdPc := fun a => ((dec a).1.1, (dec a).1.2.1, (dec a).1.2.2, (((dec a).2 : ℕ) : ℤ))
  have hsite : ∀ a, LegalId d n (site a) := fun a =>
    ⟨(hdec1 a).1, (hdec1 a).2.1, (hdec1 a).2.2, by simp only [site]; omega, by
      have := (dec a).2.2; simp only [site]; omega⟩
  have hix : ∀ a : Fin N, idPc2Sc d n (site a) = (a : ℕ) := by
    intro a
    rw [idx_ext, hdec2 a]
    rfl
  have hinj : ∀ q k, LegalId d n q → LegalId d n k → idPc2Sc d n q = idPc2Sc d n k → q = k := by
    intro q k hq hk h
    rw [idx_ext, idx_ext] at h
    obtain ⟨e1, e2⟩ := extIdx_inj (d := dimCell d) (I := cellOf q) (J := cellOf k) ⟨hq.1, hq.2.1, hq.2.2.1⟩ ⟨hk.1, hk.2.1, hk.2.2.1⟩
      hq.2.2.2 hk.2.2.2 h
    simp only [cellOf, Prod.mk.injEq] at e1
    exact Prod.ext e1.1 (Prod.ext e1.2.1 (Prod.ext e1.2.2 e2))
  have hback : ∀ q, LegalId d n q → ∃ a : Fin N, idPc2Sc d n q = (a : ℕ) ∧ site a = q := by
    intro q hq
    have hrg := extIdx_range (d := dimCell d) (I := cellOf q) (n := n) ⟨hq.1, hq.2.1, hq.2.2.1⟩ hq.2.2.2
    rw [← idx_ext] at hrg
    have hlt : (idPc2Sc d n q).toNat < N := by omega
    have e : idPc2Sc d n q = ((⟨_, hlt⟩ : Fin N) : ℕ) := by simp only; omega
    refine ⟨⟨_, hlt⟩, e, hinj _ _ (hsite _) hq ?_⟩
    rw [hix, ← e]
  have key := fold_charpoly (N := N) (n := n) (κ := boxSet (dimCell d)) (toMatrix N M)
    (fun m => toMatrix n (setHam pos eng hops 1 (fun x => (K x + cellAt m x) / cellAt (dimCell d) x) IMat.zero))
    (fun m => C09_hermitian _ _ _ _ _ _) ?_ (fun m a => boxWave (dimCell d) m (dec a).1 (pos (((dec a).2 : ℕ) : ℤ)))
    (fun a => (dec a).2) (((dimCell d).1 * (dimCell d).2.1 * (dimCell d).2.2 : ℤ) : ℂ) ?_
    (fun m m' j => boxWave_orth hD hN dec hdec1 hdec2 (fun i => pos ((i : ℕ) : ℤ)) m m' j) ?_
  · rw [key, Finset.prod_coe_sort (boxSet (dimCell d)) (fun m =>
      (toMatrix n (setHam pos eng hops 1 (fun x => (K x + cellAt m x) / cellAt (dimCell d) x) IMat.zero)).charpoly)]
    rfl
  · rw [Fintype.card_coe]
    have := card_boxSet (dimCell d) hD
    zify
    rw [hN, this]
  · have : (dimCell d).1 * (dimCell d).2.1 * (dimCell d).2.2 ≠ 0 := by
      have h1 := hD.1; have h2 := hD.2.1; have h3 := hD.2.2
      positivity
    exact_mod_cast this
  · intro m v μ hv
    let v' : ℤ → ℂ := fun i => if h : i.toNat < n then v ⟨i.toNat, h⟩ else 0
    let W : IdPc → ℂ := fun q => boxWave (dimCell d) m (cellOf q) (pos q.2.2.2) * v' q.2.2.2
    have hv' : ∀ i : Fin n, v' (i : ℕ) = v i := by
      intro i
      simp only [v', Int.toNat_natCast, i.2, dif_pos]
    have hket : ∀ q ∈ sites, ∀ t ∈ hops, ketImage d pbc q t = some (ketWrap d q t) :=
      fun q hq t ht => hc.ket ((hsm q).1 hq) ht
    funext a
    have hA := hsite a
    have hAm := (hsm _).2 hA
    have hrow : ∀ b : Fin N, M (a : ℕ) (b : ℕ) =
        (if a = b then ((eng.getD (site a).2.2.2.toNat 0 : ℝ) : ℂ) else 0) +
        ((triples d pbc [] sites hops).map fun x => if x.1 = site a ∧ idPc2Sc d n x.2.1 = (b : ℕ) then
          x.2.2.2.2 * eiPhase (2 * Real.pi * ∑ y, K y * fracBond (dimCell d) pos x.2.2 y) else 0).sum +
        ((triples d pbc [] sites hops).map fun x => if x.2.1 = site a ∧ idPc2Sc d n x.1 = (b : ℕ) then
          star (x.2.2.2.2 * eiPhase (2 * Real.pi * ∑ y, K y * fracBond (dimCell d) pos x.2.2 y)) else 0).sum := by
      intro b
      have h := hM _ hAm _ ((hsm _).2 (hsite b))
      rw [hix, hix] at h
      rw [h, star_list_sum, List.map_map]
      have hmem : ∀ x ∈ triples d pbc [] sites hops, LegalId d n x.1 ∧ LegalId d n x.2.1 := by
        rintro ⟨q, k, t⟩ hx
        obtain ⟨h1, h2, -, h4, -⟩ := mem_triples.1 hx
        exact ⟨(hsm q).1 h1, ketImage_legal hd (hr t h2).2 h4⟩
      congr 1
      · congr 1
        · have : site a = site b ↔ a = b := ⟨fun h => by
            apply Fin.ext
            have := hix a
            rw [h, hix b] at this
            omega, fun h => by rw [h]⟩
          by_cases c : a = b
          · rw [if_pos c, if_pos (this.2 c)]
          · rw [if_neg c, if_neg fun h => c (this.1 h)]
        · refine congrArg List.sum (List.map_congr_left fun x hx => ?_)
          have : idPc2Sc d n x.1 = (a : ℕ) ↔ x.1 = site a :=
            ⟨fun h => hinj _ _ (hmem x hx).1 hA (h.trans (hix a).symm), fun h => by rw [h, hix]⟩
          simp only [this]
      · refine congrArg List.sum (List.map_congr_left fun x hx => ?_)
        have : idPc2Sc d n x.2.1 = (a : ℕ) ↔ x.2.1 = site a :=
          ⟨fun h => hinj _ _ (hmem x hx).2 hA (h.trans (hix a).symm), fun h => by rw [h, hix]⟩
        simp only [Function.comp, this]
        by_cases c : x.2.1 = site a ∧ idPc2Sc d n x.1 = (b : ℕ)
        · rw [if_pos c, if_pos c.symm]
        · rw [if_neg c, if_neg fun h => c h.symm, star_zero]
    have hw : ∀ b : Fin N, boxWave (dimCell d) m (dec b).1 (pos (((dec b).2 : ℕ) : ℤ)) * v (dec b).2 = W (site b) := by
      intro b
      simp only [W, site, cellOf, hv']
    simp only [Matrix.mulVec, dotProduct, toMatrix, Matrix.of_apply, Pi.smul_apply, smul_eq_mul, hrow, hw]
    have hv0 := congrFun hv (dec a).2
    simp only [Matrix.mulVec, dotProduct, toMatrix, Matrix.of_apply, Pi.smul_apply, smul_eq_mul] at hv0
    have hB := setHam_mulVec pos eng hlen hops hr (fun x => (K x + cellAt m x) / cellAt (dimCell d) x) v' (dec a).2
    simp only [hv'] at hB
    rw [hv0] at hB
    simp only [add_mul, Finset.sum_add_distrib]
    rw [sum_pick (w := fun b => W (site b)) (triples d pbc [] sites hops) (fun x => idPc2Sc d n x.2.1) (fun x => x.1 = site a)
        (fun x => x.2.2.2.2 * eiPhase (2 * Real.pi * ∑ y, K y * fracBond (dimCell d) pos x.2.2 y)) (fun x => W x.2.1) ?_,
      sum_pick (w := fun b => W (site b)) (triples d pbc [] sites hops) (fun x => idPc2Sc d n x.1) (fun x => x.2.1 = site a)
        (fun x => star (x.2.2.2.2 * eiPhase (2 * Real.pi * ∑ y, K y * fracBond (dimCell d) pos x.2.2 y))) (fun x => W x.1) ?_,
      bra_sum hket hsn hAm, ket_sum hd hket hsn hsm hr hAm]
    rotate_left
    · rintro ⟨q, k, t⟩ hx
      obtain ⟨h1, h2, -, h4, -⟩ := mem_triples.1 hx
      obtain ⟨b, e1, e2⟩ := hback q ((hsm q).1 h1)
      exact ⟨b, e1, by simp only [e2]⟩
    · rintro ⟨q, k, t⟩ hx
      obtain ⟨h1, h2, -, h4, -⟩ := mem_triples.1 hx
      obtain ⟨b, e1, e2⟩ := hback k (ketImage_legal hd (hr t h2).2 h4)
      exact ⟨b, e1, by simp only [e2]⟩
    have hWa : W (site a) = boxWave (dimCell d) m (dec a).1 (pos (((dec a).2 : ℕ) : ℤ)) * v (dec a).2 := (hw a).symm
    have goal2 : μ * W (site a) = boxWave (dimCell d) m (dec a).1 (pos (((dec a).2 : ℕ) : ℤ)) * (μ * v (dec a).2) := by
      rw [hWa]; ring
    rw [goal2, hB, mul_add, mul_add, ← List.sum_map_mul_left, ← List.sum_map_mul_left]
    congr 1
    · congr 1
      · rw [Finset.sum_eq_single a]
        · rw [if_pos rfl, hWa]
          simp only [site, Int.toNat_natCast]
          ring
        · intro b _ hb
          rw [if_neg (Ne.symm hb), zero_mul]
        · intro h; exact absurd (Finset.mem_univ _) h
      · refine congrArg List.sum (List.map_congr_left fun t ht => ?_)
        by_cases c : (((dec a).2 : ℕ) : ℤ) = t.2.1.1
        · have h := boxWave_ket d hd m pos K (site a) t c
          rw [if_pos c, if_pos (show (site a).2.2.2 = t.2.1.1 from c)]
          simp only [W]
          have e1 : (ketWrap d (site a) t).2.2.2 = t.2.1.2 := rfl
          have e2 : boxWave (dimCell d) m (cellOf (site a)) (pos (site a).2.2.2) =
            boxWave (dimCell d) m (dec a).1 (pos (((dec a).2 : ℕ) : ℤ)) := rfl
          rw [e2] at h
          rw [e1]
          linear_combination (t.2.2 * v' t.2.1.2) * h
        · rw [if_neg c, if_neg (show ¬ (site a).2.2.2 = t.2.1.1 from c), mul_zero]
    · refine congrArg List.sum (List.map_congr_left fun t ht => ?_)
      by_cases c : t.2.1.2 = (((dec a).2 : ℕ) : ℤ)
      · have h := boxWave_bra d hd m pos K (site a) hA t c
        rw [if_pos c, if_pos (show t.2.1.2 = (site a).2.2.2 from c)]
        simp only [W, star_mul']
        have e1 : (braWrap d (site a) t).2.2.2 = t.2.1.1 := rfl
        have e2 : boxWave (dimCell d) m (cellOf (site a)) (pos (site a).2.2.2) =
          boxWave (dimCell d) m (dec a).1 (pos (((dec a).2 : ℕ) : ℤ)) := rfl
        rw [e2] at h
        rw [e1]
        linear_combination (star t.2.2 * v' t.2.1.1) * h
      · rw [if_neg c, if_neg (show ¬ t.2.1.2 = (site a).2.2.2 from c), mul_zero]

/-- The images of the hoppings of the primitive cell, as `get_hop` returns them. -/
theorem getHop_triples {H : HashFns ℝ ℂ Λ} {HS : SCHash ℝ ℂ Λ} {pc0 : PrimCell ℝ ℂ Λ} {s s1 : SCell ℝ ℂ Λ} {out : SCell.HopOut ℝ ℂ}
    (hp : PrimCell.Reach H pc0) (h : SCell.Reach H HS pc0 s) (hm : s.modi.numHop = 0) (hv : s.vacs = [])
    (hg : SCell.getHop H HS s = (s1, .ok out)) :
    s.dim.Pos ∧ HopsInRange pc0.numOrb pc0.hops.toList ∧
      ∃ T : IdPc × IdPc × (Cell × Pair × ℂ) → SCHop ℝ ℂ,
        out.terms.Perm ((triples s.dim s.pbc [] (buildOrbIdPc s.dim pc0.numOrb []) pc0.hops.toList).map T) ∧
        ∀ x ∈ triples s.dim s.pbc [] (buildOrbIdPc s.dim pc0.numOrb []) pc0.hops.toList, (T x).i = idPc2Sc s.dim pc0.numOrb x.1 ∧
          (T x).j = idPc2Sc s.dim pc0.numOrb x.2.1 ∧ (T x).v = x.2.2.2.2 ∧
          (s.posMod = id → (T x).dr = bondVec pc0.lat (rowAt (pc0.orbs.map Orbital.position)) x.2.2) := by
  obtain ⟨V, hV, hs, hG⟩ := SCell.Reach.good hp h
  obtain ⟨hs1, hfr, hout⟩ := SCell.getHop_plain hV hG hs hm hg
  obtain ⟨g1, g2, -, g4, g5, g6, -⟩ := SCell.good_sync hV hG hs false
  rw [← hs1] at g1 g2 g4 g5 g6
  have hn : s1.pc.numOrb = pc0.numOrb := by unfold PrimCell.numOrb; rw [g1.same.orbs]
  have hr := (PrimCell.WF_reduced hp.good.1).2
  have hl : LegalVacs s1.dim pc0.numOrb s1.vacs := hn ▸ g1.legal
  have hpos : s.dim.Pos := g4 ▸ ⟨g1.pos.1, g1.pos.2, g1.pos.3⟩
  have hv1 : s1.vacs = [] := g2.trans hv
  have hvn : vacIdSc s1.dim pc0.numOrb s1.vacs = [] := by rw [hv1]; rfl
  refine ⟨hpos, hr, mkTerm s1.dim pc0.numOrb s1.vacs (scLatVec pc0.lat s1.dim) (rowAt (s1.orbPos H)), ?_, ?_⟩
  · rw [hout]
    refine (SCell.initHop_perm g1 hfr hr).trans ?_
    rw [buildHopGen_triples ⟨g1.pos.1, g1.pos.2, g1.pos.3⟩ hl s1.pbc _ _ _ hr, hvn, hv1, g4, g5]
  · rintro ⟨q, k, t⟩ hx
    obtain ⟨hq, ht, ho, hk, -⟩ := mem_triples.1 hx
    refine ⟨?_, ?_, rfl, ?_⟩
    · simp only [mkTerm, hvn, idPc2ScAny, List.length_nil, if_true]
      rw [g4]
    · simp only [mkTerm, hvn, idPc2ScAny, List.length_nil, if_true]
      rw [g4]
    · intro hpm
      have hop : s1.orbPos H = buildOrbPos pc0.lat s1.pc.origin (rowAt (pc0.orbs.map Orbital.position))
          (buildOrbIdPc s1.dim pc0.numOrb (vacIdSc s1.dim pc0.numOrb s1.vacs)) := by
        unfold SCell.orbPos
        rw [g6, hpm, id, (PrimCell.syncOrb_fresh g1.sync false).1, g1.same.orbs, g1.same.lat, hfr.orb, hfr.vac, hn]
      rw [hop]
      have hq' := (mem_buildOrbIdPc (d := s.dim) (n := pc0.numOrb) (vacs := []) ⟨List.nodup_nil, by simp⟩ q).1 hq
      have hkl := ketImage_legal hpos (hr t ht).2 hk
      rw [← g4] at hq' hkl
      rw [← g4, ← g5] at hk
      exact mkTerm_dr ⟨g1.pos.1, g1.pos.2, g1.pos.3⟩ hl hq'.1 (by simp [hv1]) hkl (by simp [hv1]) ho hk

theorem getEng_sites {H : HashFns ℝ ℂ Λ} {HS : SCHash ℝ ℂ Λ} {pc0 : PrimCell ℝ ℂ Λ} {s : SCell ℝ ℂ Λ} {eng : List ℝ}
    (hp : PrimCell.Reach H pc0) (h : SCell.Reach H HS pc0 s) (hv : s.vacs = []) (he : (SCell.getOrbEng H HS s).2 = .ok eng) :
    eng = (buildOrbIdPc s.dim pc0.numOrb []).map fun q => (pc0.orbs.map Orbital.energy).getD q.2.2.2.toNat 0 := by
  obtain ⟨V, hV, hs, hG⟩ := SCell.Reach.good hp h
  obtain ⟨g1, g2, -, g4, g5, g6, -, g8, g9⟩ := SCell.good_sync hV hG hs false
  unfold SCell.getOrbEng at he
  rcases hx : SCell.syncArray HS s false with ⟨s1, r⟩
  rw [hx] at he g1 g2 g4 g9
  cases r with
  | error e => simp at he
  | ok u =>
    have hfr := g9 rfl
    have hn : s1.pc.numOrb = pc0.numOrb := by unfold PrimCell.numOrb; rw [g1.same.orbs]
    simp only [Except.ok.injEq] at he
    simp only at g1 g2 g4 hfr
    rw [← he]
    unfold buildOrbEng
    rw [(PrimCell.syncOrb_fresh g1.sync false).2, g1.same.orbs, hfr.orb, hfr.vac, hn, g2, hv, g4]
    rfl

/-- Spectrum of the matrix of a pristine periodic supercell, for any phases that are those of the bond vectors. -/
theorem cell_charpoly {H : HashFns ℝ ℂ Λ} {HS : SCHash ℝ ℂ Λ} {pc0 : PrimCell ℝ ℂ Λ} {s s1 : SCell ℝ ℂ Λ} {out : SCell.HopOut ℝ ℂ}
    {eng : List ℝ} (hp : PrimCell.Reach H pc0) (h : SCell.Reach H HS pc0 s) (hm : s.modi.numHop = 0) (hv : s.vacs = [])
    (hc : ClosedBox s.dim s.pbc pc0.hops.toList) (hg : SCell.getHop H HS s = (s1, .ok out))
    (he : (SCell.getOrbEng H HS s).2 = .ok eng) (K : Vec3 ℝ) (φ : SCHop ℝ ℂ → ℂ)
    (hφ : ∀ (h : SCHop ℝ ℂ) (t : Cell × Pair × ℂ), (s.posMod = id → h.dr = bondVec pc0.lat (rowAt (pc0.orbs.map Orbital.position)) t) →
      φ h = eiPhase (2 * Real.pi * ∑ y, K y * fracBond (dimCell s.dim) (rowAt (pc0.orbs.map Orbital.position)) t y))
    (M : ℤ → ℤ → ℂ)
    (hM : ∀ a b, M a b = engMat eng a b + ((out.terms.filter fun h => h.i = a ∧ h.j = b).map fun h => h.v * φ h).sum +
      star ((out.terms.filter fun h => h.i = b ∧ h.j = a).map fun h => h.v * φ h).sum) :
    eng.length = s.dim.a * s.dim.b * s.dim.c * pc0.numOrb ∧
    (toMatrix eng.length M).charpoly =
      ∏ m ∈ Finset.Ico 0 (s.dim.a : ℤ) ×ˢ Finset.Ico 0 (s.dim.b : ℤ) ×ˢ Finset.Ico 0 (s.dim.c : ℤ),
        (toMatrix pc0.numOrb (setHam (rowAt (pc0.orbs.map Orbital.position)) (pc0.orbs.map Orbital.energy) pc0.hops.toList 1
          (fun x => (K x + cellAt m x) / cellAt (dimCell s.dim) x) IMat.zero)).charpoly := by
  obtain ⟨hd, hr, T, hT, hTx⟩ := getHop_triples hp h hm hv hg
  have heng := getEng_sites hp h hv he
  have hleg : LegalVacs s.dim pc0.numOrb [] := ⟨List.nodup_nil, by simp⟩
  have hlen : eng.length = s.dim.a * s.dim.b * s.dim.c * pc0.numOrb := by
    rw [heng, List.length_map]
    have := length_buildOrbIdPc hleg
    simp only [vacIdSc, List.map_nil, List.insertionSort_nil, List.length_nil, Dim.prod] at this
    omega
  refine ⟨hlen, ?_⟩
  rw [hlen]
  have hsm : ∀ q, q ∈ buildOrbIdPc s.dim pc0.numOrb [] ↔ LegalId s.dim pc0.numOrb q := by
    intro q
    have := mem_buildOrbIdPc hleg q
    simpa [vacIdSc] using this
  refine images_charpoly hd hr hc (pc0.orbs.map Orbital.energy) (by simp [PrimCell.numOrb])
    (rowAt (pc0.orbs.map Orbital.position)) K _ (by simpa [vacIdSc] using buildOrbIdPc_nodup hleg) hsm M ?_
  have hsum : ∀ a b, ((out.terms.filter fun h => h.i = a ∧ h.j = b).map fun h => h.v * φ h).sum =
      ((triples s.dim s.pbc [] (buildOrbIdPc s.dim pc0.numOrb []) pc0.hops.toList).map fun x =>
        if idPc2Sc s.dim pc0.numOrb x.1 = a ∧ idPc2Sc s.dim pc0.numOrb x.2.1 = b then
          x.2.2.2.2 * eiPhase (2 * Real.pi * ∑ y, K y * fracBond (dimCell s.dim) (rowAt (pc0.orbs.map Orbital.position)) x.2.2 y)
        else 0).sum := by
    intro a b
    rw [sum_filter_ite, (hT.map _).sum_eq, List.map_map]
    refine congrArg List.sum (List.map_congr_left fun x hx => ?_)
    obtain ⟨e1, e2, e3, e4⟩ := hTx x hx
    simp only [Function.comp, e1, e2, e3]
    rw [hφ (T x) x.2.2 e4]
  intro q hq k hk
  rw [hM, hsum, hsum]
  congr 2
  have hix : ∀ q, LegalId s.dim pc0.numOrb q → 0 ≤ idPc2Sc s.dim pc0.numOrb q ∧
      (buildOrbIdPc s.dim pc0.numOrb [])[(idPc2Sc s.dim pc0.numOrb q).toNat]? = some q := by
    intro q hq
    have := buildOrbIdPc_get hleg hq (by simp)
    simpa [vacIdSc, idPc2ScAny] using this
  have h1 := hix q ((hsm q).1 hq)
  have h2 := hix k ((hsm k).1 hk)
  unfold engMat
  by_cases c : q = k
  · subst c
    rw [if_pos ⟨rfl, h1.1⟩, if_pos rfl, heng, List.getElem?_map, h1.2]
    rfl
  · rw [if_neg c, if_neg]
    rintro ⟨e, -⟩
    rw [e, h2.2] at h1
    exact c (Option.some.inj h1.2).symm

theorem sync_pos (H : HashFns ℝ ℂ Λ) (s : PrimCell ℝ ℂ Λ) (hs : PrimCell.Reach H s) :
    (syncArray H s).arrPos = s.orbs.map Orbital.position := by
  have hr1 := PrimCell.syncHop_rest H (s.syncOrb H false) false
  have hf0 := PrimCell.syncOrb_fresh hs.good.2 false
  change (PrimCell.syncHop H (s.syncOrb H false) false).arrPos = _
  exact hr1.2.2.2.2.2.2.1.trans hf0.1

theorem setHamDense_sync (H : HashFns ℝ ℂ Λ) (pc0 : PrimCell ℝ ℂ Λ) (hs : PrimCell.Reach H pc0) (k : Vec3 ℝ) (M : IMat)
    (h : PrimCell.setHamDense (syncArray H pc0) k 1 = .ok M) :
    M = setHam (rowAt (pc0.orbs.map Orbital.position)) (pc0.orbs.map Orbital.energy) pc0.hops.toList 1 k IMat.zero := by
  obtain ⟨h1, h2, -, -⟩ := sync_data H pc0 hs
  have h3 := sync_pos H pc0 hs
  unfold PrimCell.setHamDense at h
  split_ifs at h
  simp only [Except.ok.injEq] at h
  rw [← h, h1, h2]
  congr 1
  funext i
  unfold posAt rowAt
  rw [h3]

/-- What a newly made sample of one supercell computes, in terms of the supercell. -/
theorem one_cell {H : HashFns ℝ ℂ Λ} {HS : SCHash ℝ ℂ Λ} {hp hp0 : SCHeap ℝ ℂ Λ} {id : ℕ} {s0 : Sample ℝ ℂ}
    (hnew : Sample.new hp [.sc id] = (hp0, .ok s0)) (hc : ReachCell H HS (hp0 id)) {e0 : List ℝ} {o0 : SCell.HopOut ℝ ℂ}
    (he : (Sample.initEng H HS hp0 s0 false).2 = ({ s0 with eng := some e0 }, .ok ()))
    (ho : (Sample.initHop H HS hp0 s0 false).2 = ({ s0 with hop := some o0, rescale := 1 }, .ok ())) :
    (SCell.getOrbEng H HS (hp0 id)).2 = .ok e0 ∧ ∃ s1, ∃ out : SCell.HopOut ℝ ℂ, SCell.getHop H HS (hp0 id) = (s1, .ok out) ∧ o0.terms = out.terms := by
  obtain ⟨hcells, -, hin, n1, n2, n3, n4⟩ := C27_new hnew
  have hci : s0.cells = [id] ∧ s0.inters = [] := by
    unfold Sample.new at hnew
    simp only [Sample.parseArgs] at hnew
    split_ifs at hnew <;> simp_all
    · obtain ⟨-, rfl⟩ := hnew; simp
  have hall : ∀ i ∈ s0.cells, ReachCell H HS (hp0 i) := by
    rw [hci.1]; intro i hi; rw [List.mem_singleton.1 hi]; exact hc
  constructor
  · have he' : Sample.initEng H HS hp0 s0 false = ((Sample.initEng H HS hp0 s0 false).1, { s0 with eng := some e0 }, .ok ()) :=
      Prod.ext rfl he
    obtain ⟨ls, h1, h2, -⟩ := (C27_orbitals hall).1 (Or.inr n1) he'
    rw [hci.1] at h1
    cases h1 with
    | cons a t =>
      cases t
      simp only [Sample.mk.injEq, true_and, and_true, Option.some.injEq] at h2
      rw [a]
      simpa using h2.symm
  · have ho' : Sample.initHop H HS hp0 s0 false =
        ((Sample.initHop H HS hp0 s0 false).1, { s0 with hop := some o0, rescale := 1 }, .ok ()) := Prod.ext rfl ho
    obtain ⟨o, outs, pss, h1, h2, -, h4, -⟩ := C27_blocks_partial hall (by rw [hci.2]; simp) (Or.inr n3) ho'
    rw [hci.1] at h2
    cases h2 with
    | @cons _ out _ _ a t =>
      cases t
      refine ⟨_, out, Prod.ext rfl a, ?_⟩
      simp only [Sample.mk.injEq, true_and, and_true, Option.some.injEq] at h1
      rw [h1, h4, hci.2]
      simp [blockStart]

theorem scLat_det {lat : Mat3 ℝ} (h : lat.det ≠ 0) {d : Dim} (hd : d.Pos) : (scLatVec lat d).det ≠ 0 := by
  have e : (scLatVec lat d).det = (d.a * d.b * d.c : ℕ) * lat.det := by
    rw [Matrix.det_fin_three, Matrix.det_fin_three]
    simp only [scLatVec]
    push_cast
    ring
  rw [e]
  have := hd.a; have := hd.b; have := hd.c
  have h2 : ((d.a * d.b * d.c : ℕ) : ℝ) ≠ 0 := by
    have : 0 < d.a * d.b * d.c := by positivity
    exact_mod_cast this.ne'
  exact mul_ne_zero h2 h

theorem bond_frac (lat : Mat3 ℝ) (d : Dim) (hd : d.Pos) (pos : ℤ → Vec3 ℝ) (t : Cell × Pair × ℂ) :
    bondVec lat pos t = Matrix.vecMul (fracBond (dimCell d) pos t) (scLatVec lat d) := by
  have ha : (d.a : ℝ) ≠ 0 := by have := hd.a; positivity
  have hb : (d.b : ℝ) ≠ 0 := by have := hd.b; positivity
  have hc : (d.c : ℝ) ≠ 0 := by have := hd.c; positivity
  funext x
  simp only [bondVec, frac2cartRow, Matrix.vecMul, dotProduct, Fin.sum_univ_three, fracBond, scLatVec, cellAt, dimCell, Pi.add_apply,
    Matrix.mulVec, Matrix.transpose_apply, Pi.zero_apply, add_zero]
  simp
  field_simp

/-- Arrays times the recorded factor give the matrix times that factor. -/
theorem scaled_bloch (c : ℝ) (eng : List ℝ) (l : List (SCHop ℝ ℂ)) (ψ : Vec3 ℝ → ℂ) (a b : ℤ) :
    engMat (eng.map (· * c)) a b +
      (((l.map fun t => { t with v := t.v * (c : ℂ) }).filter fun h => h.i = a ∧ h.j = b).map fun h => h.v * ψ h.dr).sum +
      star (((l.map fun t => { t with v := t.v * (c : ℂ) }).filter fun h => h.i = b ∧ h.j = a).map fun h => h.v * ψ h.dr).sum =
    c * (engMat eng a b + ((l.filter fun h => h.i = a ∧ h.j = b).map fun h => h.v * ψ h.dr).sum +
      star ((l.filter fun h => h.i = b ∧ h.j = a).map fun h => h.v * ψ h.dr).sum) := by
  have h1 : engMat (eng.map (· * c)) a b = c * engMat eng a b := by
    unfold engMat
    split_ifs
    · rw [List.getElem?_map]
      cases eng[a.toNat]? with
      | none => simp
      | some x => simp; ring
    · simp
  have h2 : ∀ a b : ℤ, (((l.map fun t => { t with v := t.v * (c : ℂ) }).filter fun h => h.i = a ∧ h.j = b).map fun h => h.v * ψ h.dr).sum =
      c * ((l.filter fun h => h.i = a ∧ h.j = b).map fun h => h.v * ψ h.dr).sum := by
    intro a b
    rw [List.filter_map, List.map_map, ← List.sum_map_mul_left]
    refine congrArg List.sum (List.map_congr_left fun x _ => ?_)
    simp only [Function.comp]
    ring
  rw [h1, h2, h2, star_mul']
  have : star (c : ℂ) = c := Complex.conj_ofReal c
  rw [this]
  ring

open Sample in
/-- **C123.** Take a supercell without vacancies and modifications reached by any history, which closes on itself, and make a sample
of it.  After any calls of `rescale_ham`, `init_*` and `reset_array`, the Hamiltonian of the sample at Bloch vector `K` (dense or sparse)
has, with multiplicities, the bands of the primitive cell at the points `(K + m) / dim`. -/
theorem C123_bloch {auto : List ℝ → List (SCHop ℝ ℂ) → ℝ} {H : HashFns ℝ ℂ Λ} {HS : SCHash ℝ ℂ Λ} {hp hp0 : SCHeap ℝ ℂ Λ} {id : ℕ}
    {s0 : Sample ℝ ℂ} {pc0 : PrimCell ℝ ℂ Λ} (hpc : PrimCell.Reach H pc0)
    (hnew : Sample.new hp [.sc id] = (hp0, .ok s0)) (hsc : SCell.Reach H HS pc0 (hp0 id)) (hpm : (hp0 id).posMod = fun l => l)
    (hv : (hp0 id).vacs = []) (hm : (hp0 id).modi.numHop = 0) (hc : ClosedBox (hp0 id).dim (hp0 id).pbc pc0.hops.toList)
    (hlat : pc0.lat.det ≠ 0) {ops : List (ROp ℝ)} (hops : ∀ op ∈ ops, op ≠ .initEng true ∧ op ≠ .initHop true)
    (hnz : ∀ pre, pre <+: ops → (rrun auto Complex.ofRealHom H HS (hp0, s0) pre).2.rescale ≠ 0)
    {eng : List ℝ} {o : SCell.HopOut ℝ ℂ} (he : (rrun auto Complex.ofRealHom H HS (hp0, s0) ops).2.eng = some eng)
    (ho : (rrun auto Complex.ofRealHom H HS (hp0, s0) ops).2.hop = some o) (K : Vec3 ℝ) (ham : ℤ → ℤ → ℂ) (hs : Cell → IMat)
    (hok : ∀ m, InBox (dimCell (hp0 id).dim) m →
      PrimCell.setHamDense (syncArray H pc0) (fun x => (K x + cellAt m x) / cellAt (dimCell (hp0 id).dim) x) 1 = .ok (hs m)) :
    ∃ M : ℤ → ℤ → ℂ,
      Sample.setHamDense (scLatVec pc0.lat (hp0 id).dim) (rrun auto Complex.ofRealHom H HS (hp0, s0) ops).2 eng o K 1 ham = some M ∧
      Sample.setHamCsr (scLatVec pc0.lat (hp0 id).dim) (rrun auto Complex.ofRealHom H HS (hp0, s0) ops).2 eng o K 1 = some M ∧
      eng.length = (hp0 id).dim.a * (hp0 id).dim.b * (hp0 id).dim.c * pc0.numOrb ∧
      (toMatrix eng.length M).charpoly =
        ∏ m ∈ Finset.Ico 0 ((hp0 id).dim.a : ℤ) ×ˢ Finset.Ico 0 ((hp0 id).dim.b : ℤ) ×ˢ Finset.Ico 0 ((hp0 id).dim.c : ℤ),
          (toMatrix pc0.numOrb (hs m)).charpoly := by
  have hrc : ReachCell H HS (hp0 id) := ⟨⟨pc0, hpc, hsc⟩, by intro l; rw [hpm]⟩
  have hcs : ∀ i ∈ s0.cells, ReachCell H HS (hp0 i) := by
    intro i hi
    have := ((C27_new hnew).1 i).1 hi
    simp only [List.mem_singleton, SampArg.sc.injEq] at this
    rw [this]; exact hrc
  obtain ⟨r1, r2⟩ := C28_rescale_partial (auto := auto) (ι := Complex.ofRealHom) hnew hcs hops hnz
  obtain ⟨e0, h1, h2⟩ := r1 eng he
  obtain ⟨o0, h3, h4⟩ := r2 o ho
  obtain ⟨g1, s1, out, g2, g3⟩ := one_cell hnew hrc h1 h3
  obtain ⟨hd, -, -⟩ := getHop_triples hpc hsc hm hv g2
  generalize (rrun auto Complex.ofRealHom H HS (hp0, s0) ops).2 = st at *
  have hdet := scLat_det hlat hd
  have hunit : IsUnit (scLatVec pc0.lat (hp0 id).dim).det := isUnit_iff_ne_zero.2 hdet
  let B : Mat3 ℝ := (scLatVec pc0.lat (hp0 id).dim)⁻¹
  obtain ⟨M, m1, m2, m3, -⟩ := C31_bloch hdet st eng o K ham (fun h => Matrix.vecMul h.dr B) (by
    intro h _ x
    have : Matrix.vecMul (Matrix.vecMul h.dr B) (scLatVec pc0.lat (hp0 id).dim) = h.dr := by
      rw [Matrix.vecMul_vecMul, Matrix.nonsing_inv_mul _ hunit, Matrix.vecMul_one]
    conv_lhs => rw [← this]
    simp only [Matrix.vecMul, dotProduct, Fin.sum_univ_three])
  let ψ : Vec3 ℝ → ℂ := fun u => Complex.exp (2 * Real.pi * Complex.I * (K 0 * Matrix.vecMul u B 0 + K 1 * Matrix.vecMul u B 1 +
    K 2 * Matrix.vecMul u B 2))
  have key := cell_charpoly hpc hsc hm hv hc g2 g1 K (fun h => ψ h.dr) (by
    intro h t hdr
    simp only [ψ]
    rw [hdr hpm, bond_frac pc0.lat (hp0 id).dim hd, Matrix.vecMul_vecMul, Matrix.mul_nonsing_inv _ hunit, Matrix.vecMul_one,
      eiPhase_eq_exp, Fin.sum_univ_three]
    congr 1
    push_cast
    ring) M (by
    intro a b
    rw [m3, ← g3, ← h4, ← h2]
    exact (scaled_bloch st.rescale eng o.terms ψ a b).symm)
  have hlen : e0.length = eng.length := by rw [← h2, List.length_map]
  rw [hlen] at key
  refine ⟨M, m1, m2, key.1, key.2.trans (Finset.prod_congr rfl fun m hmm => ?_)⟩
  rw [setHamDense_sync H pc0 hpc _ _ (hok m ((mem_boxSet _ _).1 hmm))]

/-- The builder of the sparse matrix keeps every diagonal entry that is zero or not below the cutoff. -/
theorem diag_eng {cutoff : ℝ} {eng : List ℝ} (hcut : ∀ e ∈ eng, e = 0 ∨ cutoff ≤ |e|) {a : ℕ} (ha : a < eng.length) (b : ℤ) :
    diagMat Complex.ofReal cutoff eng a b = engMat eng a b := by
  have ha' : (a : ℤ) < eng.length := by exact_mod_cast ha
  unfold diagMat engMat
  simp only [Int.toNat_natCast, List.getD_eq_getElem?_getD, List.getElem?_eq_getElem ha, Option.getD_some, Int.natCast_nonneg, ha',
    true_and, and_true]
  by_cases hab : (a : ℤ) = b
  · simp only [hab, true_and, if_true]
    rcases hcut _ (List.getElem_mem ha) with h0 | h0
    · rw [h0]; simp
    · rw [if_pos h0]
  · simp [hab]

open Sample in
/-- **C123 (propagation).** The matrix TBPM propagates with, times the recorded factor, has with multiplicities the bands of the
primitive cell at the points `m / dim`, provided no nonzero on-site energy falls below the cutoff of the builder (see C25). Neither the
lattice nor the positions matter. -/
theorem C123_tbpm {auto : List ℝ → List (SCHop ℝ ℂ) → ℝ} {H : HashFns ℝ ℂ Λ} {HS : SCHash ℝ ℂ Λ} {hp hp0 : SCHeap ℝ ℂ Λ} {id : ℕ}
    {s0 : Sample ℝ ℂ} {pc0 : PrimCell ℝ ℂ Λ} (hpc : PrimCell.Reach H pc0)
    (hnew : Sample.new hp [.sc id] = (hp0, .ok s0)) (hsc : SCell.Reach H HS pc0 (hp0 id)) (hpm : ∀ l, ((hp0 id).posMod l).length = l.length)
    (hv : (hp0 id).vacs = []) (hm : (hp0 id).modi.numHop = 0) (hc : ClosedBox (hp0 id).dim (hp0 id).pbc pc0.hops.toList)
    {ops : List (ROp ℝ)} (hops : ∀ op ∈ ops, op ≠ .initEng true ∧ op ≠ .initHop true)
    (hnz : ∀ pre, pre <+: ops → (rrun auto Complex.ofRealHom H HS (hp0, s0) pre).2.rescale ≠ 0)
    {eng : List ℝ} {o : SCell.HopOut ℝ ℂ} (he : (rrun auto Complex.ofRealHom H HS (hp0, s0) ops).2.eng = some eng)
    (ho : (rrun auto Complex.ofRealHom H HS (hp0, s0) ops).2.hop = some o) (hs : Cell → IMat)
    (hok : ∀ m, InBox (dimCell (hp0 id).dim) m →
      PrimCell.setHamDense (syncArray H pc0) (fun x => (cellAt m x : ℝ) / cellAt (dimCell (hp0 id).dim) x) 1 = .ok (hs m))
    (junk : CsrEnt ℝ ℂ) (cutoff : ℝ) (hcut : ∀ e ∈ eng, e = 0 ∨ cutoff ≤ |e|) {f : List ℤ → List ℕ} (hf : ArgsortOK f)
    (c : Csr ℝ ℂ) (hcsr : c = buildFast Complex.ofReal junk cutoff eng o.terms ∨ c = buildSafe f Complex.ofReal junk cutoff eng o.terms) :
    (toMatrix eng.length fun a b => c.mat a b * (rrun auto Complex.ofRealHom H HS (hp0, s0) ops).2.rescale).charpoly =
      ∏ m ∈ Finset.Ico 0 ((hp0 id).dim.a : ℤ) ×ˢ Finset.Ico 0 ((hp0 id).dim.b : ℤ) ×ˢ Finset.Ico 0 ((hp0 id).dim.c : ℤ),
        (toMatrix pc0.numOrb (hs m)).charpoly := by
  have hrc : ReachCell H HS (hp0 id) := ⟨⟨pc0, hpc, hsc⟩, hpm⟩
  have hcs : ∀ i ∈ s0.cells, ReachCell H HS (hp0 i) := by
    intro i hi
    have := ((C27_new hnew).1 i).1 hi
    simp only [List.mem_singleton, SampArg.sc.injEq] at this
    rw [this]; exact hrc
  obtain ⟨r1, r2⟩ := C28_rescale_partial (auto := auto) (ι := Complex.ofRealHom) hnew hcs hops hnz
  obtain ⟨e0, h1, h2⟩ := r1 eng he
  obtain ⟨o0, h3, h4⟩ := r2 o ho
  obtain ⟨g1, s1, out, g2, g3⟩ := one_cell hnew hrc h1 h3
  obtain ⟨hd, hr, T, hT, hTx⟩ := getHop_triples hpc hsc hm hv g2
  generalize (rrun auto Complex.ofRealHom H HS (hp0, s0) ops).2 = st at *
  have hlen : e0.length = eng.length := by rw [← h2, List.length_map]
  have key := cell_charpoly hpc hsc hm hv hc g2 g1 0 (fun _ => 1) (by
    intro h t _
    simp [eiPhase_zero]) _ (fun a b => rfl)
  rw [hlen] at key
  -- every term is in range
  have hrange : TermsInRange eng.length o.terms := by
    intro x hx
    have hx0 : ({ x with v := x.v * (st.rescale : ℂ) } : SCHop ℝ ℂ) ∈ out.terms := by
      rw [← g3, ← h4]
      exact List.mem_map_of_mem hx
    obtain ⟨y, hy, e⟩ := List.mem_map.1 (hT.mem_iff.1 hx0)
    obtain ⟨e1, e2, -, -⟩ := hTx y hy
    obtain ⟨q, k, t⟩ := y
    obtain ⟨b1, b2, -, b4, -⟩ := mem_triples.1 hy
    have hq := (mem_buildOrbIdPc (d := (hp0 id).dim) (n := pc0.numOrb) (vacs := []) ⟨List.nodup_nil, by simp⟩ q).1 b1
    have hk := ketImage_legal hd (hr t b2).2 b4
    have rg : ∀ q, LegalId (hp0 id).dim pc0.numOrb q → 0 ≤ idPc2Sc (hp0 id).dim pc0.numOrb q ∧
        idPc2Sc (hp0 id).dim pc0.numOrb q < eng.length := by
      intro q hq
      rw [idx_ext, key.1]
      have := extIdx_range (d := dimCell (hp0 id).dim) (I := cellOf q) (n := pc0.numOrb) ⟨hq.1, hq.2.1, hq.2.2.1⟩ hq.2.2.2
      simpa [dimCell] using this
    have i1 : x.i = idPc2Sc (hp0 id).dim pc0.numOrb q := by
      rw [e] at e1; exact e1
    have i2 : x.j = idPc2Sc (hp0 id).dim pc0.numOrb k := by
      rw [e] at e2; exact e2
    exact ⟨i1 ▸ rg q hq.1, i2 ▸ rg k hk⟩
  have hmat : ∀ a b : Fin eng.length, c.mat (a : ℕ) (b : ℕ) = hamSpec eng o.terms (a : ℕ) (b : ℕ) := by
    intro a b
    have hdiag : diagMat Complex.ofReal cutoff eng (a : ℕ) (b : ℕ) = engMat eng (a : ℕ) (b : ℕ) := by
      exact diag_eng hcut a.2 _
    unfold hamSpec
    rw [← hdiag]
    rcases hcsr with rfl | rfl
    · exact (C25_fast_matrix Complex.ofReal junk cutoff hrange ⟨by omega, by have := a.2; omega⟩ (b : ℕ)).1
    · exact (C25_safe_matrix hf Complex.ofReal junk cutoff hrange ⟨by omega, by have := a.2; omega⟩ (b : ℕ)).1
  have hM : (toMatrix eng.length fun a b => c.mat a b * st.rescale) = toMatrix eng.length fun a b => engMat e0 a b +
      ((out.terms.filter fun h => h.i = a ∧ h.j = b).map fun h => h.v * 1).sum +
      star ((out.terms.filter fun h => h.i = b ∧ h.j = a).map fun h => h.v * 1).sum := by
    ext a b
    simp only [toMatrix, Matrix.of_apply]
    rw [hmat, ← g3, ← h4, ← h2]
    refine Eq.trans ?_ (scaled_bloch st.rescale eng o.terms (fun _ => 1) (a : ℕ) (b : ℕ)).symm
    simp only [mul_one, hamSpec, hopMat]
    rw [mul_comm]
  rw [hM, key.2]
  refine Finset.prod_congr rfl fun m hmm => ?_
  rw [setHamDense_sync H pc0 hpc _ _ (hok m ((mem_boxSet _ _).1 hmm))]
  simp

/-- Hash functions for the concrete case. -/
noncomputable def scHashR : SCHash ℝ ℂ Unit := ⟨fun p => p.orbs.length, fun v => v.length⟩

theorem chainR_lat : chainR.lat = 1 := by
  simp [chainR, chainCalls, PrimCell.run, PrimCell.call, PrimCell.step, PrimCell.addOrbital, PrimCell.addHopping, PrimCell.init, checkLen, PrimCell.numOrb,
    PrimCell.checkHopIndex]

theorem chainR_hash : chainR.hashHop = 0 := by
  simp [chainR, chainCalls, PrimCell.run, PrimCell.call, PrimCell.step, PrimCell.addOrbital, PrimCell.addHopping, PrimCell.init, checkLen, PrimCell.numOrb,
    PrimCell.checkHopIndex, lenHashR, IntraHop.empty]

theorem ringR_new (N : ℕ) (hN : 3 ≤ N) : ∃ pc' s0, SCell.new lenHashR scHashR chainR [(N : ℤ), 1] [true, true] none (fun l => l) = (pc', .ok s0) ∧
    s0.dim = ⟨N, 1, 1⟩ ∧ s0.pbc = (true, true, false) ∧ s0.vacs = [] ∧ s0.modi = IntraHop.empty ∧ (s0.posMod = fun l => l) ∧ SCell.verifyPc s0.pc = .ok () := by
  have h1 : SCell.verifyPc { chainR with locked := true } = .ok () := by
    have : chainR.hops.numHop = 1 := by rw [← IntraHop.length_toList, chainR_hops]; rfl
    simp [SCell.verifyPc, PrimCell.numOrb, show chainR.orbs = [⟨0, 3, ()⟩] from chainR_one _ (Or.inr rfl), this]
  have h2 : (PrimCell.syncHop lenHashR { chainR with locked := true } false).arrInd = [((1, 0, 0), (0, 0))] := by
    simp [PrimCell.syncHop, chainR_hops, chainR_hash, lenHashR]
  have h3 : SCell.checkDim [(((1, 0, 0) : Cell), ((0, 0) : Pair))] ((N : ℤ), 1, 1) = .ok ⟨N, 1, 1⟩ := by
    simp [SCell.checkDim, dimMin]
    omega
  have h4 : SCell.verifyPc (PrimCell.syncHop lenHashR { chainR with locked := true } false) = .ok () := by
    have hr := PrimCell.syncHop_rest lenHashR { chainR with locked := true } false
    rw [← h1]
    unfold SCell.verifyPc PrimCell.numOrb
    rw [hr.2.2.2.1, hr.2.2.2.2.1, ← IntraHop.length_toList, PrimCell.toList_purge, IntraHop.length_toList]
  unfold SCell.new
  simp only [h1, checkLen, h2, h3]
  exact ⟨_, _, rfl, rfl, rfl, rfl, rfl, rfl, h4⟩


theorem sync_plain {Λ : Type*} (HS : SCHash ℝ ℂ Λ) (s : SCell ℝ ℂ Λ) (hpc : SCell.verifyPc s.pc = .ok ()) (hv : s.vacs = []) :
    ∃ s', SCell.syncArray HS s false = (s', .ok ()) ∧ s'.modi = s.modi ∧ s'.vacs = [] ∧ SCell.verifyPc s'.pc = .ok () := by
  unfold SCell.syncArray
  rw [hpc]
  simp only [hv]
  split_ifs <;> first | exact ⟨_, rfl, rfl, rfl, hpc⟩ | (exfalso; simp_all)

open Sample in
/-- The arrays of a sample made of one supercell without vacancies and modifications, after `rescale_ham(f)`. -/
theorem rescale_runs {Λ : Type*} (auto : List ℝ → List (SCHop ℝ ℂ) → ℝ) (H : HashFns ℝ ℂ Λ) (HS : SCHash ℝ ℂ Λ) {s : SCell ℝ ℂ Λ}
    (hpc : SCell.verifyPc s.pc = .ok ()) (hl : s.locked = true) (hm : s.modi.numHop = 0) (hv : s.vacs = []) (f : ℝ) :
    Sample.new (fun _ => s) [.sc 0] = (fun _ => s, .ok ⟨[0], [], none, none, none, 1⟩) ∧
    ∃ eng o, (rrun auto Complex.ofRealHom H HS ((fun _ => s), (⟨[0], [], none, none, none, 1⟩ : Sample ℝ ℂ)) [.rescale (some f)]).2 =
      ⟨[0], [], some eng, none, some o, f⟩ := by
  have hset : heapSet (fun _ : ℕ => s) 0 s = fun _ => s := by
    funext k; unfold heapSet; split_ifs <;> rfl
  constructor
  · have : ({ s with locked := true } : SCell ℝ ℂ Λ) = s := by rw [← hl]
    simp [Sample.new, Sample.parseArgs, Sample.closureErr, this, hset]
  · obtain ⟨s', hs, h1, h2, h3⟩ := sync_plain HS s hpc hv
    obtain ⟨s'', hs', h1', h2', h3'⟩ := sync_plain HS s' h3 h2
    have hm' : s''.modi.numHop = 0 := by rw [h1', h1, hm]
    simp [rrun, rstep, rescaleHam, Sample.initEng, Sample.initHop, collect, SCell.getOrbEng, SCell.getHop, hs,
      heapSet, hs', SCell.getHopSynced, hm', collectInter]

theorem box_ring (N : ℕ) (g : Cell → Polynomial ℂ) :
    ∏ m ∈ Finset.Ico 0 (N : ℤ) ×ˢ Finset.Ico 0 ((1 : ℕ) : ℤ) ×ˢ Finset.Ico 0 ((1 : ℕ) : ℤ), g m = ∏ j ∈ Finset.range N, g (j, 0, 0) := by
  rw [Finset.prod_product]
  have h1 : (Finset.Ico 0 ((1 : ℕ) : ℤ)) = {0} := by decide
  rw [h1]
  simp only [Finset.singleton_product_singleton, Finset.prod_singleton]
  rw [Finset.prod_bij (fun (x : ℤ) _ => x.toNat) (t := Finset.range N) (g := fun j => g (j, 0, 0))]
  · intro a ha
    rw [Finset.mem_Ico] at ha
    rw [Finset.mem_range]; omega
  · intro a ha b hb h
    rw [Finset.mem_Ico] at ha hb
    omega
  · intro b hb
    rw [Finset.mem_range] at hb
    exact ⟨b, by rw [Finset.mem_Ico]; omega, by simp⟩
  · intro a ha
    rw [Finset.mem_Ico] at ha
    simp only [Int.toNat_of_nonneg ha.1]

open Sample in
/-- A concrete case of C123: a ring of `N ≥ 3` cells of the chain with on-site energy 3 and hopping 2.  The matrix which TBPM propagates with has
the levels `(3 + 4 cos (2π j / N)) / f` after `rescale_ham(f)`. -/
theorem C123_ring (N : ℕ) (hN : 3 ≤ N) (auto : List ℝ → List (SCHop ℝ ℂ) → ℝ) (f : ℝ) (hf : f ≠ 0) (junk : CsrEnt ℝ ℂ) :
    ∃ (s : SCell ℝ ℂ Unit) (hp0 : SCHeap ℝ ℂ Unit) (s0 : Sample ℝ ℂ) (eng : List ℝ) (o : SCell.HopOut ℝ ℂ),
      Sample.new (fun _ => s) [.sc 0] = (hp0, .ok s0) ∧
      (rrun auto Complex.ofRealHom lenHashR scHashR (hp0, s0) [.rescale (some f)]).2 = ⟨[0], [], some eng, none, some o, f⟩ ∧
      eng.length = N ∧
      (toMatrix N fun a b => (buildFast Complex.ofReal junk 0 eng o.terms).mat a b * f).charpoly =
        ∏ j ∈ Finset.range N, (Polynomial.X - Polynomial.C (((3 + 4 * Real.cos (2 * Real.pi * (j / N)) : ℝ)) : ℂ)) := by
  obtain ⟨pc', s1, hn, d1, d2, d3, d4, d5, hv⟩ := ringR_new N hN
  have hr : SCell.Reach lenHashR scHashR chainR { s1 with locked := true } := by
    refine ⟨_, _, _, _, _, _, [.lock], hn, ?_, ?_, rfl⟩
    · intro op hop; simp at hop; subst hop; simp
    · have hall : ∀ v ∈ SCell.Visited lenHashR scHashR s1 [.lock], v = [] := by
        rintro v (rfl | ⟨pre, ⟨post, hpre⟩, rfl⟩)
        · rfl
        · rcases pre with _ | ⟨a, _ | ⟨b, pre⟩⟩
          · exact d3
          · simp at hpre
            obtain ⟨rfl, -⟩ := hpre
            exact d3
          · simp at hpre
      intro v hv w hw _
      rw [hall v hv, hall w hw]
  have hm : s1.modi.numHop = 0 := by rw [d4]; rfl
  obtain ⟨r1, eng, o, r2⟩ := rescale_runs auto lenHashR scHashR (s := { s1 with locked := true }) hv rfl hm d3 f
  have ho1 : chainR.numOrb = 1 := by
    unfold PrimCell.numOrb
    rw [show chainR.orbs = [⟨0, 3, ()⟩] from chainR_one _ (Or.inr rfl)]; rfl
  obtain ⟨y1, y2, y3, y4⟩ := sync_data lenHashR chainR chainR_reach
  rw [chainR_hops] at y2 y4
  rw [show chainR.orbs = [⟨0, 3, ()⟩] from chainR_one _ (Or.inr rfl)] at y1 y3
  have hM : ∀ k : Vec3 ℝ, PrimCell.setHamDense (syncArray lenHashR chainR) k 1 =
      .ok (setHam (syncArray lenHashR chainR).posAt (syncArray lenHashR chainR).arrEng (syncArray lenHashR chainR).hopRows 1 k IMat.zero) := by
    intro k
    unfold PrimCell.setHamDense; simp [y3, y4]
  have hclosed : ClosedBox s1.dim s1.pbc chainR.hops.toList := by
    rw [chainR_hops, d1, d2]
    exact ⟨Or.inl rfl, Or.inl rfl, Or.inr ⟨rfl, by simp⟩⟩
  have hnz : ∀ pre, pre <+: [ROp.rescale (some f)] →
      (rrun auto Complex.ofRealHom lenHashR scHashR ((fun _ => { s1 with locked := true }), (⟨[0], [], none, none, none, 1⟩ : Sample ℝ ℂ)) pre).2.rescale ≠ 0 := by
    rintro pre ⟨post, hpre⟩
    rcases pre with _ | ⟨a, _ | ⟨b, pre⟩⟩
    · simp [rrun]
    · simp at hpre
      obtain ⟨rfl, -⟩ := hpre
      rw [r2]; exact hf
    · simp at hpre
  obtain ⟨fs, hfs⟩ := argsort_exists
  have key := C123_tbpm (auto := auto) chainR_reach r1 hr (by rw [show ({ s1 with locked := true } : SCell ℝ ℂ Unit).posMod = fun l => l from d5]; intro l; rfl)
    d3 hm hclosed (ops := [.rescale (some f)]) (by simp) hnz (eng := eng) (o := o) (by rw [r2]) (by rw [r2])
    (fun m => setHam (syncArray lenHashR chainR).posAt (syncArray lenHashR chainR).arrEng (syncArray lenHashR chainR).hopRows 1
      (fun x => (cellAt m x : ℝ) / cellAt (dimCell s1.dim) x) IMat.zero) (fun m _ => hM _) junk 0 (fun e _ => Or.inr (abs_nonneg e))
    hfs _ (Or.inl rfl)
  have kl := C123_bloch (auto := auto) chainR_reach r1 hr d5
    d3 hm hclosed (by rw [chainR_lat]; simp) (ops := [.rescale (some f)]) (by simp) hnz (eng := eng) (o := o) (by rw [r2]) (by rw [r2]) 0 (fun _ _ => 0) _
    (fun m _ => hM _)
  obtain ⟨M, -, -, kl, -⟩ := kl
  have hl : eng.length = N := by rw [kl, ho1]; simp [d1]
  refine ⟨_, _, _, eng, o, r1, r2, hl, ?_⟩
  rw [r2, hl] at key
  refine key.trans ?_
  simp only [d1]
  rw [box_ring]
  refine Finset.prod_congr rfl fun j _ => ?_
  rw [ho1]
  unfold Matrix.charpoly
  rw [Matrix.det_fin_one, Matrix.charmatrix_apply_eq]
  congr 2
  simp only [toMatrix, Matrix.of_apply]
  rw [y1, y2, setHam_apply, setDiag_apply]
  simp [hopTerm, hopPhase, kDotR, dimCell, cellAt, eiPhase_eq_exp]
  rw [← Complex.exp_conj, Complex.cos]
  have : (starRingEnd ℂ) (2 * ↑Real.pi * (↑j / ↑N) * Complex.I) = -(2 * ↑Real.pi * (↑j / ↑N)) * Complex.I := by
    simp [Complex.conj_ofReal]
    exact Or.inl (map_ofNat (starRingEnd ℂ) 2)
  rw [this]
  ring
end Verif.Props

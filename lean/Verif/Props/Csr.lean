import Verif.Proof.Csr
import Mathlib.Algebra.Star.Basic
import Mathlib.Data.Int.Star
import Mathlib.Data.Rat.Star

/-! # Properties C25 and C26: sparse matrices of a sample

`eng` are the on-site energies (one per orbital), `hops` the reduced list of hopping terms of the
sample, `cutoff` the documented argument `orb_eng_cutoff`, `ι` the embedding of the reals into the
complex numbers and `junk` the content of uninitialised memory. -/

namespace Verif

variable {F E : Type*} [Field F] [LinearOrder F] [IsStrictOrderedRing F] [Ring E] [StarRing E]

private theorem fast_mat_row {ι : F → E} {junk : CsrEnt F E} {cutoff : F} {eng : List F}
    {hops : List (SCHop F E)} (hh : TermsInRange eng.length hops) {a : ℤ} (ha : 0 ≤ a ∧ a < eng.length) :
    ((buildFast ι junk cutoff eng hops).row a).Perm (rowsOf (safeFull ι cutoff eng hops) a) := by
  rw [(fast_rows hh).1 a ha.1 ha.2]
  exact rowsOf_perm (fastPushes_perm ι cutoff eng hops) a

private theorem mat_of_row {ι : F → E} {cutoff : F} {eng : List F} {hops : List (SCHop F E)} {c : Csr F E}
    {a : ℤ} (h : (c.row a).Perm (rowsOf (safeFull ι cutoff eng hops) a)) (b : ℤ) :
    c.mat a b = diagMat ι cutoff eng a b + hopMat hops a b + star (hopMat hops b a) ∧
    c.dxMat a b = drMat 0 hops a b - drMat 0 hops b a ∧
    c.dyMat a b = drMat 1 hops a b - drMat 1 hops b a := by
  refine ⟨?_, ?_, ?_⟩
  · unfold Csr.mat
    rw [((h.filter _).map _).sum_eq, rows_mat]
    unfold diagMat hopMat
    rw [list_sum_star, List.map_map]
    rfl
  · unfold Csr.dxMat
    have := rows_mat ι cutoff eng hops a b (CsrEnt.dx)
    rw [((h.filter _).map _).sum_eq, this]
    unfold drMat
    simp only [ite_self, zero_add, sub_eq_add_neg]
    rw [List.sum_neg, List.map_map]; rfl
  · unfold Csr.dyMat
    have := rows_mat ι cutoff eng hops a b (CsrEnt.dy)
    rw [((h.filter _).map _).sum_eq, this]
    unfold drMat
    simp only [ite_self, zero_add, sub_eq_add_neg]
    rw [List.sum_neg, List.map_map]; rfl

private theorem valid_of {ι : F → E} {cutoff : F} {eng : List F} {hops : List (SCHop F E)} {c : Csr F E}
    (hh : TermsInRange eng.length hops)
    (hip : ∀ x : ℤ, 0 ≤ x → x ≤ eng.length → c.indptr x = rowsBelow (safeFull ι cutoff eng hops) x)
    (hrow : ∀ r : ℤ, 0 ≤ r → r < eng.length → (c.row r).Perm (rowsOf (safeFull ι cutoff eng hops) r))
    (hw : c.writes.Perm ((List.range (c.indptr eng.length).toNat).map (fun k : ℕ => (k : ℤ)))) :
    c.Valid eng.length := by
  refine ⟨?_, ?_, hw, ?_⟩
  · rw [hip 0 (le_refl _) (by omega)]
    unfold rowsBelow
    rw [Nat.cast_eq_zero, List.countP_eq_zero]
    intro t ht
    have := (safeFull_rows hh t ht).1.1
    simp only [decide_eq_true_eq]; omega
  · intro r hr
    rw [hip r (by omega) (by omega), hip _ (by omega) (by omega)]
    exact_mod_cast rowsBelow_mono _ (by omega)
  · intro r hr e he
    have := (hrow r (by omega) (by omega)).mem_iff.1 he
    unfold rowsOf at this
    simp only [List.mem_map, List.mem_filter] at this
    obtain ⟨t, ⟨ht, _⟩, rfl⟩ := this
    exact (safeFull_rows hh t ht).2

/-- C25: the fast builder writes a structurally valid CSR matrix without touching memory outside
the arrays. -/
theorem C25_fast_valid (ι : F → E) (junk : CsrEnt F E) (cutoff : F) {eng : List F} {hops : List (SCHop F E)}
    (hh : TermsInRange eng.length hops) : (buildFast ι junk cutoff eng hops).Valid eng.length := by
  refine valid_of (ι := ι) (cutoff := cutoff) hh ?_ (fun r h0 h1 => fast_mat_row hh ⟨h0, h1⟩) (fast_rows hh).2
  intro x h0 h1
  rw [fast_ip hh ⟨h0, h1⟩]
  unfold rowsBelow
  rw [(fastPushes_perm ι cutoff eng hops).countP_eq]

/-- C25: so does the safe builder, for every sorting routine. -/
theorem C25_safe_valid {f : List ℤ → List ℕ} (hf : ArgsortOK f) (ι : F → E) (junk : CsrEnt F E) (cutoff : F)
    {eng : List F} {hops : List (SCHop F E)} (hh : TermsInRange eng.length hops) :
    (buildSafe f ι junk cutoff eng hops).Valid eng.length := by
  obtain ⟨h1, h2, h3⟩ := safe_rows (junk := junk) (ι := ι) (cutoff := cutoff) hf hh
  exact valid_of (ι := ι) (cutoff := cutoff) hh h1 h2 h3

/-- C25: the matrices of the fast builder: `H = diag + T + T^dagger` and `dx = X - X^T`, `dy = Y - Y^T`. -/
theorem C25_fast_matrix (ι : F → E) (junk : CsrEnt F E) (cutoff : F) {eng : List F} {hops : List (SCHop F E)}
    (hh : TermsInRange eng.length hops) {a : ℤ} (ha : 0 ≤ a ∧ a < eng.length) (b : ℤ) :
    let c := buildFast ι junk cutoff eng hops
    c.mat a b = diagMat ι cutoff eng a b + hopMat hops a b + star (hopMat hops b a) ∧
    c.dxMat a b = drMat 0 hops a b - drMat 0 hops b a ∧
    c.dyMat a b = drMat 1 hops a b - drMat 1 hops b a :=
  mat_of_row (fast_mat_row hh ha) b

/-- C25: the safe builder has the same matrices. -/
theorem C25_safe_matrix {f : List ℤ → List ℕ} (hf : ArgsortOK f) (ι : F → E) (junk : CsrEnt F E) (cutoff : F)
    {eng : List F} {hops : List (SCHop F E)} (hh : TermsInRange eng.length hops) {a : ℤ}
    (ha : 0 ≤ a ∧ a < eng.length) (b : ℤ) :
    let c := buildSafe f ι junk cutoff eng hops
    c.mat a b = diagMat ι cutoff eng a b + hopMat hops a b + star (hopMat hops b a) ∧
    c.dxMat a b = drMat 0 hops a b - drMat 0 hops b a ∧
    c.dyMat a b = drMat 1 hops a b - drMat 1 hops b a :=
  mat_of_row ((safe_rows hf hh).2.1 a ha.1 ha.2) b

/-- C25: both matrices are Hermitian, and `dx`, `dy` antisymmetric. -/
theorem C25_hermitian {f : List ℤ → List ℕ} (hf : ArgsortOK f) {ι : F → E} (hι : ∀ x, star (ι x) = ι x)
    (junk : CsrEnt F E) (cutoff : F) {eng : List F} {hops : List (SCHop F E)}
    (hh : TermsInRange eng.length hops) {c : Csr F E}
    (hc : c = buildFast ι junk cutoff eng hops ∨ c = buildSafe f ι junk cutoff eng hops)
    {a b : ℤ} (ha : 0 ≤ a ∧ a < eng.length) (hb : 0 ≤ b ∧ b < eng.length) :
    c.mat a b = star (c.mat b a) ∧ c.dxMat a b = -c.dxMat b a ∧ c.dyMat a b = -c.dyMat b a := by
  have hd : star (diagMat ι cutoff eng b a) = diagMat ι cutoff eng a b := by
    unfold diagMat
    by_cases h : a = b
    · subst h; split_ifs
      · exact hι _
      · exact star_zero _
    · rw [if_neg (fun hh => h hh.1.symm), if_neg (fun hh => h hh.1), star_zero]
  have h1 : ∀ x y : ℤ, 0 ≤ x ∧ x < eng.length →
      c.mat x y = diagMat ι cutoff eng x y + hopMat hops x y + star (hopMat hops y x) ∧
      c.dxMat x y = drMat 0 hops x y - drMat 0 hops y x ∧ c.dyMat x y = drMat 1 hops x y - drMat 1 hops y x := by
    intro x y hx
    rcases hc with rfl | rfl
    · exact C25_fast_matrix ι junk cutoff hh hx y
    · exact C25_safe_matrix hf ι junk cutoff hh hx y
  obtain ⟨p1, p2, p3⟩ := h1 a b ha
  obtain ⟨q1, q2, q3⟩ := h1 b a hb
  refine ⟨?_, by rw [p2, q2]; abel, by rw [p3, q3]; abel⟩
  rw [p1, q1, star_add, star_add, hd, star_star]
  abel

/-- C25: the two builders store the same entries in each row. -/
theorem C25_fast_safe_agree {f : List ℤ → List ℕ} (hf : ArgsortOK f) (ι : F → E) (junk : CsrEnt F E)
    (cutoff : F) {eng : List F} {hops : List (SCHop F E)} (hh : TermsInRange eng.length hops) :
    ∀ r : ℤ, 0 ≤ r ∧ r < eng.length →
      ((buildFast ι junk cutoff eng hops).row r).Perm ((buildSafe f ι junk cutoff eng hops).row r) :=
  fun r hr => (fast_mat_row hh hr).trans ((safe_rows hf hh).2.1 r hr.1 hr.2).symm

/-- C25: the exact layout of the rows of the fast builder, including multiplicities, the displacement
stored along with each matrix element, and the order. -/
theorem C25_fast_layout (ι : F → E) (junk : CsrEnt F E) (cutoff : F) {eng : List F} {hops : List (SCHop F E)}
    (hh : TermsInRange eng.length hops) (r : ℤ) (hr : 0 ≤ r ∧ r < eng.length) :
    (buildFast ι junk cutoff eng hops).row r =
      (if cutoff ≤ |eng.getD r.toNat 0| then [⟨r, ι (eng.getD r.toNat 0), 0, 0⟩] else []) ++
      hops.flatMap (fun h => (if h.i = r then [⟨h.j, h.v, h.dr 0, h.dr 1⟩] else []) ++
        (if h.j = r then [⟨h.i, star h.v, -h.dr 0, -h.dr 1⟩] else [])) := by
  rw [(fast_rows hh).1 r hr.1 hr.2]
  unfold fastPushes
  rw [rowsOf_append, diag_rows]
  congr 1
  · simp [hr.1, hr.2]
  · clear hh
    induction hops with
    | nil => rfl
    | cons h hs ih =>
      rw [List.flatMap_cons, List.flatMap_cons, rowsOf_append, ih]
      congr 1
      unfold rowsOf
      by_cases h1 : h.i = r <;> by_cases h2 : h.j = r <;> simp [h1, h2]

/-- C26: sorting the columns permutes the entries within each row, so no matrix changes, and leaves the
columns of each row in order; the row pointers do not change. -/
theorem C26_sort_col {f : List ℤ → List ℕ} (hf : ArgsortOK f) {c : Csr F E} {n : ℕ} (hc : c.Valid n) :
    (sortCol f n c).indptr = c.indptr ∧ (sortCol f n c).Valid n ∧
    ∀ r : ℕ, r < n →
      ((sortCol f n c).row r).Perm (c.row r) ∧
      (((sortCol f n c).row r).map CsrEnt.col).Pairwise (· ≤ ·) ∧
      ∀ b, (sortCol f n c).mat r b = c.mat r b ∧ (sortCol f n c).dxMat r b = c.dxMat r b ∧
        (sortCol f n c).dyMat r b = c.dyMat r b := by
  have H := fun r hr => (sortCol_rows hf hc.mono n (le_refl n) r hr).1 hr
  have hp : ∀ r : ℕ, r < n → ((sortCol f n c).row r).Perm (c.row r) := fun r hr => (H r hr).1
  refine ⟨rfl, ⟨hc.zero, hc.mono, hc.writes, fun r hr e he => hc.cols r hr e ((hp r hr).mem_iff.1 he)⟩, ?_⟩
  intro r hr
  refine ⟨hp r hr, (H r hr).2, fun b => ⟨?_, ?_, ?_⟩⟩
  · exact (((hp r hr).filter _).map _).sum_eq
  · exact (((hp r hr).filter _).map _).sum_eq
  · exact (((hp r hr).filter _).map _).sum_eq

/-! ### Concrete cases -/

/-- A sorting routine meeting the contract. -/
theorem argsort_exists : ∃ f, ArgsortOK f := by
  refine ⟨fun l => (List.range l.length).mergeSort (fun i j => decide (l.getD i 0 ≤ l.getD j 0)), ⟨?_, ?_⟩⟩
  · intro l; exact List.mergeSort_perm _ _
  · intro l
    rw [List.pairwise_map]
    have := List.pairwise_mergeSort (le := fun i j : ℕ => decide (l.getD i 0 ≤ l.getD j 0))
      (fun a b c h1 h2 => by simp only [decide_eq_true_eq] at *; omega)
      (fun a b => by simp only [Bool.or_eq_true, decide_eq_true_eq]; omega) (List.range l.length)
    exact this.imp (fun h => by simpa using h)

private def exHops : List (SCHop ℚ ℤ) :=
  [⟨0, 1, 5, ![1, 2, 0]⟩, ⟨1, 2, 7, ![0, 1, 0]⟩, ⟨2, 1, 11, ![3, 3, 0]⟩, ⟨0, 1, 1, ![-1, 0, 0]⟩]

/-- Three orbitals, four terms, two of them on the same pair of orbitals. -/
example : TermsInRange ([3, 0, 1] : List ℚ).length exHops := by
  simp [TermsInRange, exHops]

example : (buildFast (fun _ => (2 : ℤ)) ⟨0, 0, 0, 0⟩ (1 / 10 : ℚ) [3, 0, 1] exHops).mat 1 2 = 18 ∧
    (buildFast (fun _ => (2 : ℤ)) ⟨0, 0, 0, 0⟩ (1 / 10 : ℚ) [3, 0, 1] exHops).mat 0 0 = 2 ∧
    (buildFast (fun _ => (2 : ℤ)) ⟨0, 0, 0, 0⟩ (1 / 10 : ℚ) [3, 0, 1] exHops).mat 1 1 = 0 := by
  decide +kernel

end Verif

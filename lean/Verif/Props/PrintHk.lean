import Verif.Proof.PrintHk
import Verif.Props.Plot
import Mathlib.Analysis.SpecialFunctions.Trigonometric.Bounds

/-!
# The formulae printed by `print_hk` (C117)
-/

namespace Verif.Props

open PrintHk PrimCell

theorem hkEps_eq : hkEps = 1e-5 := rfl

theorem rd_odd (c : ℝ) : rd (-c) = -rd c := by
  unfold rd
  rw [abs_neg]
  by_cases h1 : |c| > hkEps
  · have hc : c ≠ 0 := by
      rintro rfl
      rw [abs_zero, hkEps_eq] at h1
      norm_num at h1
    rw [if_pos h1, if_pos h1]
    rcases lt_or_gt_of_ne hc with h | h
    · rw [if_neg (show ¬ -c < 0 by linarith), if_pos h]; split_ifs <;> simp
    · rw [if_pos (show -c < 0 by linarith), if_neg (show ¬ c < 0 by linarith)]; split_ifs <;> simp
  · rw [if_neg h1, if_neg h1, neg_zero]

theorem rd_close (c : ℝ) : |rd c - c| ≤ 1e-5 := by
  unfold rd
  rw [hkEps_eq]
  split_ifs with h1 h2 h3
  · rw [abs_of_neg h3] at h2
    rw [show -1 - c = -c - 1 by ring]; exact h2
  · rw [abs_of_nonneg (not_lt.1 h3), abs_sub_comm] at h2; exact h2
  · norm_num
  · rw [zero_sub, abs_neg]; exact not_lt.1 h1

theorem rd_legible {f : Vec3 ℝ} (h : Legible f) (x : Fin 3) : rd (f x) = f x := by
  obtain ⟨h1, h2⟩ := h x
  unfold rd
  rw [hkEps_eq]
  rcases h1 with h1 | h1
  · rw [h1]; norm_num
  · rw [if_pos h1]
    rcases h2 with h2 | h2
    · rw [h2]
      norm_num
      split_ifs with h3
      · rw [abs_of_neg h3] at h2; linarith
      · rw [abs_of_nonneg (not_lt.1 h3)] at h2; linarith
    · rw [if_neg (not_le.2 h2)]

theorem rdPhase_neg (k f : Vec3 ℝ) : rdPhase k (-f) = -rdPhase k f := by
  simp only [rdPhase, Pi.neg_apply, rd_odd]; ring

/-- What one hopping term adds to an element of the printed matrix. -/
noncomputable def textTerm (pos : ℤ → Vec3 ℝ) (conv : ℤ) (k : Vec3 ℝ) (a b : ℤ) (t : Cell × Pair × ℂ) : ℂ :=
  (if t.2.1 = (a, b) then t.2.2 * eiPhase (2 * Real.pi * rdPhase k (hkDr pos conv t)) else 0) +
    (if t.2.1 = (b, a) then star (t.2.2 * eiPhase (2 * Real.pi * rdPhase k (hkDr pos conv t))) else 0)

theorem hopPieces_val (pos : ℤ → Vec3 ℝ) (conv : ℤ) (k : Vec3 ℝ) (a b : ℤ) (t : Cell × Pair × ℂ) :
    ((hopPieces pos conv t (a, b)).map (Piece.val k)).sum = textTerm pos conv k a b t := by
  have hsw : ((t.2.1.2, t.2.1.1) = (a, b)) ↔ t.2.1 = (b, a) := by
    obtain ⟨R, ⟨i, j⟩, e⟩ := t
    simp only [Prod.mk.injEq]; tauto
  unfold hopPieces textTerm
  rw [List.map_append, List.sum_append]
  congr 1
  · split_ifs <;> simp [Piece.val]
  · by_cases h : t.2.1 = (b, a)
    · rw [if_pos h, if_pos (hsw.2 h)]
      simp only [List.map_cons, List.map_nil, List.sum_cons, List.sum_nil, add_zero, Piece.val]
      rw [rdPhase_neg, mul_neg, eiPhase_neg, star_mul']
    · rw [if_neg h, if_neg (fun hh => h (hsw.1 hh))]; simp

theorem onPieces_val (eng : List ℝ) (k : Vec3 ℝ) (m : ℕ) (a b : ℤ) :
    ((onPieces eng m (a, b)).map (Piece.val k)).sum =
      if a = b ∧ (m : ℤ) ≤ a ∧ a < m + eng.length then ((eng.getD (a.toNat - m) 0 : ℝ) : ℂ) else 0 := by
  induction eng generalizing m with
  | nil =>
    rw [if_neg (by rintro ⟨-, h1, h2⟩; simp at h2; omega)]; simp [onPieces]
  | cons e eng ih =>
    rw [onPieces, List.zipIdx_cons, List.flatMap_cons, List.map_append, List.sum_append, ← onPieces, ih]
    simp only [List.length_cons, Prod.mk.injEq]
    by_cases hab : a = b
    · subst hab
      by_cases h1 : a = (m : ℤ)
      · subst h1
        rw [if_neg (show ¬ ((m : ℤ) = m ∧ ((m + 1 : ℕ) : ℤ) ≤ m ∧ _) by push_cast; omega), if_pos ⟨rfl, rfl⟩,
          if_pos ⟨rfl, by omega, by push_cast; omega⟩]
        simp [Piece.val]
      · rw [if_neg (show ¬ (a = (m : ℤ) ∧ a = (m : ℤ)) from fun h => h1 h.1)]
        by_cases h2 : (m : ℤ) ≤ a ∧ a < m + (eng.length + 1 : ℕ)
        · rw [if_pos ⟨rfl, by push_cast; omega, by push_cast at *; omega⟩, if_pos ⟨rfl, h2⟩]
          have : a.toNat - m = (a.toNat - (m + 1)) + 1 := by omega
          rw [this, List.getD_cons_succ]; simp
        · rw [if_neg (by push_cast at *; omega), if_neg (by rintro ⟨-, h3⟩; exact h2 h3)]; simp
    · rw [if_neg (by rintro ⟨h1, h2⟩; exact hab (h1.trans h2.symm)), if_neg (by tauto), if_neg (by tauto)]; simp

theorem flatMap_val (k : Vec3 ℝ) (l : List (Cell × Pair × ℂ)) (f : Cell × Pair × ℂ → List Piece) :
    ((l.flatMap f).map (Piece.val k)).sum = (l.map fun t => ((f t).map (Piece.val k)).sum).sum := by
  induction l with
  | nil => simp
  | cons t l ih => rw [List.flatMap_cons, List.map_append, List.sum_append, ih, List.map_cons, List.sum_cons]

theorem elem_eq (pos : ℤ → Vec3 ℝ) (eng : List ℝ) (hops : List (Cell × Pair × ℂ)) (conv : ℤ) (k : Vec3 ℝ) (a b : ℤ) :
    elem k (pieces pos eng hops conv) (a, b) =
      setDiag eng IMat.zero a b + (hops.map (textTerm pos conv k a b)).sum := by
  rw [elem, pieces, List.map_append, List.sum_append, onPieces_val, flatMap_val, setDiag_apply]
  simp [hopPieces_val]

theorem textTerm_star (pos : ℤ → Vec3 ℝ) (conv : ℤ) (k : Vec3 ℝ) (a b : ℤ) (t : Cell × Pair × ℂ) :
    star (textTerm pos conv k b a t) = textTerm pos conv k a b t := by
  unfold textTerm
  rw [star_add, add_comm]
  congr 1 <;> split_ifs <;> simp

theorem elem_star (pos : ℤ → Vec3 ℝ) (eng : List ℝ) (hops : List (Cell × Pair × ℂ)) (conv : ℤ) (k : Vec3 ℝ) (a b : ℤ) :
    star (elem k (pieces pos eng hops conv) (b, a)) = elem k (pieces pos eng hops conv) (a, b) := by
  rw [elem_eq, elem_eq, star_add, setDiag_star, star_list_sum, List.map_map]
  congr 2
  exact List.map_congr_left fun t _ => textTerm_star pos conv k a b t

theorem runLines_dict (pos : ℤ → Vec3 ℝ) (eng : List ℝ) (hops : List (Cell × Pair × ℂ)) (conv : ℤ) (k : Vec3 ℝ) :
    runLines k (hkLines (hkDict pos eng hops conv)) =
      some (fun a b => setDiag eng IMat.zero a b + (hops.map (textTerm pos conv k a b)).sum) := by
  rw [runLines_hk k (holds_hkDict pos eng hops conv)]
  congr 1
  funext a b
  rw [elem_star, ite_self, elem_eq]

theorem kDotR_dr (pos : ℤ → Vec3 ℝ) (conv : ℤ) (k : Vec3 ℝ) (t : Cell × Pair × ℂ) :
    kDotR pos conv k t.1 t.2.1.1 t.2.1.2 =
      hkDr pos conv t 0 * k 0 + hkDr pos conv t 1 * k 1 + hkDr pos conv t 2 * k 2 := by
  unfold kDotR hkDr
  split_ifs
  · simp only [Pi.sub_apply, Pi.add_apply]
    simp; ring
  · simp; ring

theorem textTerm_hopTerm (pos : ℤ → Vec3 ℝ) (conv : ℤ) (k : Vec3 ℝ) (a b : ℤ) (t : Cell × Pair × ℂ)
    (h : Legible (hkDr pos conv t)) : textTerm pos conv k a b t = hopTerm pos conv k a b t := by
  have e : rdPhase k (hkDr pos conv t) = kDotR pos conv k t.1 t.2.1.1 t.2.1.2 := by
    rw [kDotR_dr, rdPhase, rd_legible h, rd_legible h, rd_legible h]
  unfold textTerm hopTerm hopPhase
  rw [e]
  congr 1
  · split_ifs with h1
    · rw [h1]
    · rfl
  · split_ifs with h1
    · rw [h1]
    · rfl

variable {Λ : Type*}

theorem printHk_ok (H : HashFns ℝ ℂ Λ) (s : PrimCell ℝ ℂ Λ) (conv : ℤ) (k : Vec3 ℝ) (M : IMat)
    (h : setHamDense (syncArray H s) k conv = .ok M) :
    (printHk H s conv).2 = .ok (hkLines (hkDict (syncArray H s).posAt (syncArray H s).arrEng (syncArray H s).hopRows conv)) ∧
      M = setHam (syncArray H s).posAt (syncArray H s).arrEng (syncArray H s).hopRows conv k IMat.zero := by
  unfold setHamDense at h
  unfold printHk
  simp only
  split_ifs at h ⊢ with h1 h2 h3
  exact ⟨rfl, (Except.ok.inj h).symm⟩

/-- A whole number is either zero or far from zero, and either one or far from one. -/
theorem legible_cell (R : Cell) : Legible ![(R.1 : ℝ), (R.2.1 : ℝ), (R.2.2 : ℝ)] := by
  have key : ∀ n : ℤ, ((n : ℝ) = 0 ∨ 1e-5 < |(n : ℝ)|) ∧ (|(n : ℝ)| = 1 ∨ 1e-5 < |(|(n : ℝ)| - 1)|) := by
    intro n
    have h1 : ∀ m : ℤ, m ≠ 0 → (1e-5 : ℝ) < |(m : ℝ)| := by
      intro m hm
      have : (1 : ℝ) ≤ |(m : ℝ)| := by exact_mod_cast Int.one_le_abs hm
      norm_num; linarith
    constructor
    · by_cases h : n = 0
      · left; simp [h]
      · exact Or.inr (h1 n h)
    · by_cases h : |n| = 1
      · left; exact_mod_cast h
      · right
        have := h1 (|n| - 1) (by omega)
        push_cast at this
        exact this
  intro x
  fin_cases x
  · exact key R.1
  · exact key R.2.1
  · exact key R.2.2

/-- **C117.** In convention 2 the text printed by `print_hk`, run as a program, builds exactly the matrix that
`set_ham_dense` builds, for every cell and every k-point. -/
theorem C117_convention2 (H : HashFns ℝ ℂ Λ) (s : PrimCell ℝ ℂ Λ) (k : Vec3 ℝ) (M : IMat)
    (h : setHamDense (syncArray H s) k 2 = .ok M) :
    ∃ ls, (printHk H s 2).2 = .ok ls ∧ runLines k ls = some M := by
  obtain ⟨h1, rfl⟩ := printHk_ok H s 2 k M h
  refine ⟨_, h1, ?_⟩
  rw [runLines_dict]
  congr 1
  funext a b
  rw [setHam_apply]
  congr 2
  refine List.map_congr_left fun t _ => textTerm_hopTerm _ _ _ _ _ _ ?_
  simpa [hkDr] using legible_cell t.1

/-- **C117.** The same in convention 1, if no component of a hopping vector is tiny without being zero or close to
one without being one. -/
theorem C117_convention1 (H : HashFns ℝ ℂ Λ) (s : PrimCell ℝ ℂ Λ) (k : Vec3 ℝ) (M : IMat)
    (h : setHamDense (syncArray H s) k 1 = .ok M)
    (hleg : ∀ t ∈ (syncArray H s).hopRows, Legible (fun x =>
      (![(t.1.1 : ℝ), (t.1.2.1 : ℝ), (t.1.2.2 : ℝ)] : Vec3 ℝ) x + (syncArray H s).posAt t.2.1.2 x - (syncArray H s).posAt t.2.1.1 x)) :
    ∃ ls, (printHk H s 1).2 = .ok ls ∧ runLines k ls = some M := by
  obtain ⟨h1, rfl⟩ := printHk_ok H s 1 k M h
  refine ⟨_, h1, ?_⟩
  rw [runLines_dict]
  congr 1
  funext a b
  rw [setHam_apply]
  congr 2
  refine List.map_congr_left fun t ht => textTerm_hopTerm _ _ _ _ _ _ ?_
  have := hleg t ht
  rw [show hkDr (syncArray H s).posAt 1 t = _ from by
    unfold hkDr; simp only [if_true]; funext x; rw [Pi.sub_apply, Pi.add_apply, add_comm ((syncArray H s).posAt t.2.1.2 x)]]
  exact this

theorem eiPhase_lip (x y : ℝ) : ‖eiPhase x - eiPhase y‖ ≤ |x - y| := by
  have h : eiPhase x - eiPhase y = eiPhase y * (eiPhase (x - y) - 1) := by
    rw [mul_sub, ← eiPhase_add, mul_one]; congr 2; ring
  have h1 : ‖eiPhase y‖ = 1 := by rw [eiPhase_eq_exp]; exact Complex.norm_exp_ofReal_mul_I y
  rw [h, norm_mul, h1, one_mul, eiPhase_eq_exp, mul_comm]
  exact Real.norm_exp_I_mul_ofReal_sub_one_le

theorem rdPhase_close (k f : Vec3 ℝ) : |rdPhase k f - (f 0 * k 0 + f 1 * k 1 + f 2 * k 2)| ≤ 1e-5 * (|k 0| + |k 1| + |k 2|) := by
  have key : ∀ x, |rd (f x) * k x - f x * k x| ≤ 1e-5 * |k x| := by
    intro x
    rw [← sub_mul, abs_mul]
    exact mul_le_mul_of_nonneg_right (rd_close _) (abs_nonneg _)
  unfold rdPhase
  calc |rd (f 0) * k 0 + rd (f 1) * k 1 + rd (f 2) * k 2 - (f 0 * k 0 + f 1 * k 1 + f 2 * k 2)|
      = |(rd (f 0) * k 0 - f 0 * k 0) + (rd (f 1) * k 1 - f 1 * k 1) + (rd (f 2) * k 2 - f 2 * k 2)| := by congr 1; ring
    _ ≤ |rd (f 0) * k 0 - f 0 * k 0| + |rd (f 1) * k 1 - f 1 * k 1| + |rd (f 2) * k 2 - f 2 * k 2| := abs_add_three _ _ _
    _ ≤ 1e-5 * |k 0| + 1e-5 * |k 1| + 1e-5 * |k 2| := by linarith [key 0, key 1, key 2]
    _ = 1e-5 * (|k 0| + |k 1| + |k 2|) := by ring

theorem term_close (pos : ℤ → Vec3 ℝ) (conv : ℤ) (k : Vec3 ℝ) (a b : ℤ) (t : Cell × Pair × ℂ) :
    ‖textTerm pos conv k a b t - hopTerm pos conv k a b t‖ ≤
      4 * Real.pi * 1e-5 * (|k 0| + |k 1| + |k 2|) * ‖t.2.2‖ := by
  set c : ℝ := 2 * Real.pi * 1e-5 * (|k 0| + |k 1| + |k 2|) * ‖t.2.2‖ with hc
  have hc0 : 0 ≤ c := by positivity
  have hd : ‖t.2.2 * eiPhase (2 * Real.pi * rdPhase k (hkDr pos conv t)) -
      t.2.2 * eiPhase (hopPhase pos conv k t.1 t.2.1.1 t.2.1.2)‖ ≤ c := by
    rw [← mul_sub, norm_mul]
    have := eiPhase_lip (2 * Real.pi * rdPhase k (hkDr pos conv t)) (hopPhase pos conv k t.1 t.2.1.1 t.2.1.2)
    rw [hopPhase, kDotR_dr, ← mul_sub, abs_mul, abs_of_pos Real.two_pi_pos] at this
    have h2 := mul_le_mul_of_nonneg_left (rdPhase_close k (hkDr pos conv t)) Real.two_pi_pos.le
    rw [hopPhase, kDotR_dr]
    calc _ ≤ ‖t.2.2‖ * (2 * Real.pi * (1e-5 * (|k 0| + |k 1| + |k 2|))) := mul_le_mul_of_nonneg_left (this.trans h2) (norm_nonneg _)
      _ = c := by rw [hc]; ring
  have hsum : 4 * Real.pi * 1e-5 * (|k 0| + |k 1| + |k 2|) * ‖t.2.2‖ = c + c := by rw [hc]; ring
  rw [hsum]
  have e : textTerm pos conv k a b t - hopTerm pos conv k a b t =
      (if t.2.1 = (a, b) then t.2.2 * eiPhase (2 * Real.pi * rdPhase k (hkDr pos conv t)) -
        t.2.2 * eiPhase (hopPhase pos conv k t.1 t.2.1.1 t.2.1.2) else 0) +
      (if t.2.1 = (b, a) then star (t.2.2 * eiPhase (2 * Real.pi * rdPhase k (hkDr pos conv t)) -
        t.2.2 * eiPhase (hopPhase pos conv k t.1 t.2.1.1 t.2.1.2)) else 0) := by
    unfold textTerm hopTerm
    rw [add_sub_add_comm]
    congr 1
    · split_ifs with h1
      · rw [h1]
      · simp
    · split_ifs with h1
      · rw [h1, star_sub]
      · simp
  rw [e]
  refine (norm_add_le _ _).trans (add_le_add ?_ ?_)
  · split_ifs
    · exact hd
    · simpa using hc0
  · split_ifs
    · rw [norm_star]; exact hd
    · simpa using hc0

theorem sum_close (l : List (Cell × Pair × ℂ)) (f g : Cell × Pair × ℂ → ℂ) (c : ℝ)
    (h : ∀ t, ‖f t - g t‖ ≤ c * ‖t.2.2‖) :
    ‖(l.map f).sum - (l.map g).sum‖ ≤ c * (l.map fun t => ‖t.2.2‖).sum := by
  induction l with
  | nil => simp
  | cons t l ih =>
    simp only [List.map_cons, List.sum_cons]
    rw [add_sub_add_comm, mul_add]
    exact (norm_add_le _ _).trans (add_le_add (h t) ih)

/-- **C117.** Whatever the hopping vectors are, the matrix built by the printed text differs from the matrix of
`set_ham_dense` by at most `4e-5 π (|ka| + |kb| + |kc|) Σ|t|` in every element, the sum running over the hopping terms. -/
theorem C117_close (H : HashFns ℝ ℂ Λ) (s : PrimCell ℝ ℂ Λ) (conv : ℤ) (k : Vec3 ℝ) (M : IMat)
    (h : setHamDense (syncArray H s) k conv = .ok M) :
    ∃ ls N, (printHk H s conv).2 = .ok ls ∧ runLines k ls = some N ∧
      ∀ a b, ‖N a b - M a b‖ ≤ 4 * Real.pi * 1e-5 * (|k 0| + |k 1| + |k 2|) *
        ((syncArray H s).hopRows.map fun t => ‖t.2.2‖).sum := by
  obtain ⟨h1, rfl⟩ := printHk_ok H s conv k M h
  refine ⟨_, _, h1, runLines_dict _ _ _ _ _, fun a b => ?_⟩
  rw [setHam_apply, add_sub_add_left_eq_sub]
  exact sum_close _ _ _ _ (term_close _ _ _ _ _)

/-- **C117.** `print_hk` prints exactly when `set_ham_dense` succeeds: it refuses empty cells, cells without hopping terms and
illegal conventions, and it leaves the cell as `sync_array` does. -/
theorem C117_accepts (H : HashFns ℝ ℂ Λ) (s : PrimCell ℝ ℂ Λ) (conv : ℤ) (k : Vec3 ℝ) :
    (printHk H s conv).1 = syncArray H s ∧
      ((∃ ls, (printHk H s conv).2 = .ok ls) ↔ ∃ M, setHamDense (syncArray H s) k conv = .ok M) := by
  unfold printHk setHamDense
  simp only
  split_ifs <;> simp

/-! ### Non-vacuity -/

theorem sync_data (H : HashFns ℝ ℂ Λ) (s : PrimCell ℝ ℂ Λ) (hs : PrimCell.Reach H s) :
    (syncArray H s).arrEng = s.orbs.map Orbital.energy ∧ (syncArray H s).hopRows = s.hops.toList ∧
      (syncArray H s).numOrb = s.orbs.length ∧ (syncArray H s).hops.numHop = s.hops.toList.length := by
  have hsync := hs.good.2
  have hr0 := PrimCell.syncOrb_rest H s false
  have hsync0 : PrimCell.SyncOK H (s.syncOrb H false) := by
    constructor
    · intro _
      rw [hr0.2.2.2.1]
      exact PrimCell.syncOrb_fresh hsync false
    · rw [hr0.2.2.2.2.1, hr0.2.2.2.2.2.1, hr0.2.2.2.2.2.2.1, hr0.2.2.2.2.2.2.2.1]
      exact hsync.hop
  have hr1 := PrimCell.syncHop_rest H (s.syncOrb H false) false
  have hf1 := PrimCell.syncHop_fresh hsync0 false
  have hf0 := PrimCell.syncOrb_fresh hsync false
  change (PrimCell.syncHop H (s.syncOrb H false) false).arrEng = _ ∧ (PrimCell.syncHop H (s.syncOrb H false) false).hopRows = _ ∧
    (PrimCell.syncHop H (s.syncOrb H false) false).numOrb = _ ∧ (PrimCell.syncHop H (s.syncOrb H false) false).hops.numHop = _
  generalize (s.syncOrb H false).syncHop H false = s1 at hr1 hf1
  have eorb : s1.orbs = s.orbs := hr1.2.2.2.1.trans hr0.2.2.2.1
  have eeng : s1.arrEng = s.orbs.map Orbital.energy := hr1.2.2.2.2.2.2.2.1.trans hf0.2
  have eind : s1.arrInd = s.hops.toList.map (fun t => (t.1, t.2.1)) := by rw [hf1.1, hr0.2.2.2.2.1]
  have ehop : s1.arrHop = s.hops.toList.map (fun t => t.2.2) := by rw [hf1.2, hr0.2.2.2.2.1]
  refine ⟨eeng, ?_, by rw [PrimCell.numOrb, eorb], ?_⟩
  · rw [hopRows, eind, ehop]
    generalize s.hops.toList = l
    induction l with
    | nil => rfl
    | cons t l ih => simp only [List.map_cons, List.zipWith_cons_cons, ih]
  · rw [hr1.2.2.2.2.1, hr0.2.2.2.2.1, ← IntraHop.length_toList, PrimCell.toList_purge]

/-- The one-site chain with on-site energy 3 and hopping 2: the text printed for it builds `3 + 2 exp(2πi ka) + 2 exp(-2πi ka)`. -/
example (k : Vec3 ℝ) : ∃ ls N, (printHk lenHashR chainR 2).2 = .ok ls ∧ runLines k ls = some N ∧
    N 0 0 = 3 + (2 * eiPhase (2 * Real.pi * k 0) + star (2 * eiPhase (2 * Real.pi * k 0))) := by
  obtain ⟨h1, h2, h3, h4⟩ := sync_data lenHashR chainR chainR_reach
  rw [chainR_hops] at h2 h4
  rw [show chainR.orbs = [⟨0, 3, ()⟩] from chainR_one _ (Or.inr rfl)] at h1 h3
  have hM : setHamDense (syncArray lenHashR chainR) k 2 =
      .ok (setHam (syncArray lenHashR chainR).posAt (syncArray lenHashR chainR).arrEng (syncArray lenHashR chainR).hopRows 2 k IMat.zero) := by
    unfold setHamDense; simp [h3, h4]
  obtain ⟨ls, h5, h6⟩ := C117_convention2 lenHashR chainR k _ hM
  refine ⟨ls, _, h5, h6, ?_⟩
  rw [h1, h2, setHam_apply, setDiag_apply]
  simp [hopTerm, hopPhase, kDotR]

end Verif.Props

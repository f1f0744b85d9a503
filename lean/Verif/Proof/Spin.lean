import Verif.Model.Spin
import Verif.Spec.Spin
import Verif.Proof.ParallelDiag
import Mathlib.Analysis.InnerProductSpace.PiL2
import Mathlib.Data.List.GetD

/-! # Spin texture: lemmas -/

namespace Verif

theorem zipWith_sum (f : ℂ → ℂ → ℂ) (u d : ℕ → ℂ) (h : ℕ) :
    (List.zipWith f ((List.range h).map u) ((List.range h).map d)).sum = ∑ o ∈ Finset.range h, f (u o) (d o) := by
  rw [List.zipWith_map, List.zipWith_self]
  rfl

/-- The halves of a state are the spin components. -/
theorem split_eq (major : Bool) (h : ℕ) (ψ : ℕ → ℂ) :
    splitSpin major (2 * h) ((List.range (2 * h)).map ψ) =
      ((List.range h).map fun o => ψ (spinIdx major h o 0), (List.range h).map fun o => ψ (spinIdx major h o 1)) := by
  unfold splitSpin
  cases major with
  | true =>
    simp only [if_true, spinIdx]
    rw [Nat.mul_div_cancel_left h (by norm_num)]
    congr 1
    · rw [← List.map_take, List.take_range]
      simp only [Fin.val_zero, zero_mul, zero_add]
      congr 2; omega
    · apply List.ext_getElem
      · simp; omega
      · intro i h1 h2
        simp
  | false =>
    simp only [Bool.false_eq_true, if_false, slice2, List.length_map, List.length_range, spinIdx]
    congr 1
    · rw [show (2 * h + 1 - 0) / 2 = h by omega]
      apply List.map_congr_left
      intro i hi
      have := List.mem_range.1 hi
      simp only [Fin.val_zero, add_zero]
      rw [List.getD_eq_getElem _ _ (by simp; omega)]
      simp
    · rw [show (2 * h + 1 - 1) / 2 = h by omega]
      apply List.map_congr_left
      intro i hi
      have := List.mem_range.1 hi
      simp only [Fin.val_one]
      rw [List.getD_eq_getElem _ _ (by simp; omega)]
      simp

theorem spinVal_eq (major : Bool) (h : ℕ) (c : String) (ψ : ℕ → ℂ) :
    spinVal major (2 * h) c ((List.range (2 * h)).map ψ) = .ok (spinExp major h c ψ).re := by
  unfold spinVal
  rw [split_eq]
  have hv : ∀ u d : ℕ → ℂ, npVdot ((List.range h).map u) ((List.range h).map d) =
      .ok (∑ o ∈ Finset.range h, star (u o) * d o) := by
    intro u d
    unfold npVdot
    rw [if_pos (by simp), zipWith_sum]
  simp only [hv]
  unfold spinExp pauli
  split_ifs with hx hy
  · simp only [bind, Except.bind, pure, Except.pure, Except.map, Fin.sum_univ_two, Matrix.of_apply, Matrix.cons_val', Matrix.cons_val_zero, Matrix.cons_val_one, Matrix.cons_val_fin_one, mul_zero, zero_mul, mul_one, zero_add, add_zero, Finset.sum_add_distrib]
    try rw [add_comm]
  · simp only [bind, Except.bind, pure, Except.pure, Except.map, Fin.sum_univ_two, Matrix.of_apply, Matrix.cons_val', Matrix.cons_val_zero, Matrix.cons_val_one, Matrix.cons_val_fin_one, mul_zero, zero_mul, zero_add, add_zero, Finset.sum_add_distrib, Finset.mul_sum]
    try rw [add_comm]
    congr 3 <;>
    · apply Finset.sum_congr rfl
      intro o _
      ring
  · simp only [bind, Except.bind, pure, Except.pure, Except.map, Fin.sum_univ_two, Matrix.of_apply, Matrix.cons_val', Matrix.cons_val_zero, Matrix.cons_val_one, Matrix.cons_val_fin_one, mul_zero, zero_mul, mul_one, zero_add, add_zero, Finset.sum_add_distrib, mul_neg, neg_mul, Finset.sum_neg_distrib, sub_eq_add_neg]

/-- The three expectation values through the components. -/
theorem spinExp_xyz (major : Bool) (h : ℕ) (ψ : ℕ → ℂ) :
    spinExp major h "x" ψ = ((2 * (∑ o ∈ Finset.range h, star (ψ (spinIdx major h o 0)) * ψ (spinIdx major h o 1)).re : ℝ) : ℂ) ∧
    spinExp major h "y" ψ = ((2 * (∑ o ∈ Finset.range h, star (ψ (spinIdx major h o 0)) * ψ (spinIdx major h o 1)).im : ℝ) : ℂ) ∧
    spinExp major h "z" ψ = ((∑ o ∈ Finset.range h, ‖ψ (spinIdx major h o 0)‖ ^ 2 -
      ∑ o ∈ Finset.range h, ‖ψ (spinIdx major h o 1)‖ ^ 2 : ℝ) : ℂ) := by
  unfold spinExp pauli
  rw [if_pos rfl, if_neg (by decide), if_pos rfl, if_neg (by decide), if_neg (by decide)]
  simp only [Fin.sum_univ_two, Matrix.of_apply, Matrix.cons_val', Matrix.cons_val_zero, Matrix.cons_val_one, Matrix.cons_val_fin_one, mul_zero, zero_mul, mul_one, zero_add, add_zero]
  refine ⟨?_, ?_, ?_⟩
  · rw [Complex.re_sum, Finset.mul_sum, Complex.ofReal_sum]
    apply Finset.sum_congr rfl
    intro o _
    apply Complex.ext <;> simp <;> ring
  · rw [Complex.im_sum, Finset.mul_sum, Complex.ofReal_sum]
    apply Finset.sum_congr rfl
    intro o _
    apply Complex.ext <;> simp <;> ring
  · rw [← Finset.sum_sub_distrib, Complex.ofReal_sum]
    apply Finset.sum_congr rfl
    intro o _
    apply Complex.ext <;> simp [Complex.sq_norm, Complex.normSq_apply, ← Complex.ofReal_pow] <;> ring

theorem norm_split (major : Bool) (h : ℕ) (ψ : ℕ → ℂ) :
    ∑ o ∈ Finset.range (2 * h), ‖ψ o‖ ^ 2 = ∑ o ∈ Finset.range h, ‖ψ (spinIdx major h o 0)‖ ^ 2 +
      ∑ o ∈ Finset.range h, ‖ψ (spinIdx major h o 1)‖ ^ 2 := by
  cases major with
  | true =>
    simp only [spinIdx, if_true, Fin.val_zero, Fin.val_one, zero_mul, zero_add, one_mul]
    rw [two_mul, Finset.sum_range_add]
  | false =>
    simp only [spinIdx, Bool.false_eq_true, if_false, Fin.val_zero, Fin.val_one, add_zero]
    induction h with
    | zero => simp
    | succ h ih =>
      rw [show 2 * (h + 1) = 2 * h + 1 + 1 by ring, Finset.sum_range_succ, Finset.sum_range_succ, ih,
        Finset.sum_range_succ, Finset.sum_range_succ]
      ring

theorem cauchy (h : ℕ) (u d : ℕ → ℂ) :
    ‖∑ o ∈ Finset.range h, star (u o) * d o‖ ^ 2 ≤
      (∑ o ∈ Finset.range h, ‖u o‖ ^ 2) * ∑ o ∈ Finset.range h, ‖d o‖ ^ 2 := by
  calc ‖∑ o ∈ Finset.range h, star (u o) * d o‖ ^ 2
      ≤ (∑ o ∈ Finset.range h, ‖u o‖ * ‖d o‖) ^ 2 := by
        apply pow_le_pow_left₀ (norm_nonneg _)
        refine (norm_sum_le _ _).trans (Finset.sum_le_sum fun o _ => ?_)
        rw [norm_mul, norm_star]
    _ ≤ _ := Finset.sum_mul_sq_le_sq_mul_sq _ _ _

theorem spin_bound (major : Bool) (h : ℕ) (ψ : ℕ → ℂ) :
    (spinExp major h "x" ψ).re ^ 2 + (spinExp major h "y" ψ).re ^ 2 + (spinExp major h "z" ψ).re ^ 2 ≤
      (∑ o ∈ Finset.range (2 * h), ‖ψ o‖ ^ 2) ^ 2 := by
  obtain ⟨hx, hy, hz⟩ := spinExp_xyz major h ψ
  rw [hx, hy, hz, norm_split major h ψ]
  simp only [Complex.ofReal_re]
  have hc := cauchy h (fun o => ψ (spinIdx major h o 0)) (fun o => ψ (spinIdx major h o 1))
  rw [Complex.sq_norm, Complex.normSq_apply] at hc
  nlinarith [hc]

/-! ## The cache -/

/-- The cache belongs to the grid whose hash is stored, one of the grids `G`. -/
def Fresh (D : Diag) (w : World) (hk : List (Vec3 ℝ) → ℤ) (G : List (Vec3 ℝ) → Prop) (s : SpinObj) : Prop :=
  s.hash = none ∨ ∃ g f buf, G g ∧ s.hash = some (hk g) ∧
    calcStates D w buf g.length (fun i => g.getD i 0) 1 false = .ok f ∧
    s.states = some (g.length, D.nb, fun r => (f r).2)

theorem foldlM_congr' {ε S : Type*} {f g : S → ℕ → Except ε S} (L : List ℕ) (h : ∀ i ∈ L, ∀ s, f s i = g s i) (s : S) :
    L.foldlM f s = L.foldlM g s := by
  induction L generalizing s with
  | nil => rfl
  | cons i L ih =>
    rw [List.foldlM_cons, List.foldlM_cons, h i (List.mem_cons_self ..)]
    congr 1
    funext t
    exact ih (fun j hj => h j (List.mem_cons_of_mem _ hj)) t

theorem mapM_all_ok {A B ε : Type*} (f : A → Except ε B) (g : A → B) (L : List A) (h : ∀ a ∈ L, f a = .ok (g a)) :
    L.mapM f = .ok (L.map g) := by
  induction L with
  | nil => rfl
  | cons a L ih =>
    rw [List.mapM_cons, h a (List.mem_cons_self ..), ih (fun b hb => h b (List.mem_cons_of_mem _ hb))]
    rfl

theorem mem_dist_lt (w : World) (n r i : ℕ) (hr : r < w.size) (hi : i ∈ rangeElems (distRange w n r)) : i < n := by
  have : i ∈ ((List.range w.size).map fun r => rangeElems (distRange w n r)).flatten :=
    List.mem_flatten.2 ⟨_, List.mem_map.2 ⟨r, List.mem_range.2 hr, rfl⟩, hi⟩
  rw [dist_flat] at this
  exact List.mem_range.1 this

/-- The states of a process for its own k-points. -/
theorem own_states (D : Diag) (w : World) (buf : ℕ → Buf) (n : ℕ) (kpts : ℕ → Vec3 ℝ)
    (f : ℕ → (ℕ → ℕ → ℝ) × (ℕ → ℕ → ℕ → ℂ)) (hf : calcStates D w buf n kpts 1 false = .ok f) :
    firstErr (fun i => eigen D (kpts i) 1) (List.range n) = none ∧
    ∀ r < w.size, ∀ i ∈ rangeElems (distRange w n r), (f r).2 i = fun b o => (eigVal D (kpts i) 1).2 o b := by
  obtain ⟨st, h1, h2⟩ := states_local D w buf n kpts 1
  unfold calcStates at hf
  rw [h1] at hf
  cases he : firstErr (fun i => eigen D (kpts i) 1) (List.range n) with
  | some e => rw [he] at hf; simp [rowsOut, Except.map] at hf
  | none =>
    rw [he] at hf
    simp only [rowsOut, Except.map, Bool.false_eq_true, if_false, Except.ok.injEq] at hf
    refine ⟨rfl, fun r hr i hi => ?_⟩
    rw [← hf]
    have := h2 r hr
    beta_reduce
    rw [this]
    simp only [hi, if_true]

/-- `eval` on a cache which belongs to the grid. -/
theorem eval_cached (D : Diag) (w : World) (major : Bool) (c : String) (h : ℕ) (hnb : D.nb = 2 * h)
    (g : List (Vec3 ℝ)) (buf : ℕ → Buf) (f : ℕ → (ℕ → ℕ → ℝ) × (ℕ → ℕ → ℕ → ℂ))
    (hf : calcStates D w buf g.length (fun i => g.getD i 0) 1 false = .ok f) (hh : Option ℤ) (r : ℕ) (hr : r < w.size) :
    ((onRanks w fun r => (rangeElems (distRange w g.length r)).foldlM (fun (ex : ℕ → ℕ → ℝ) ik =>
        (spinRow major D.nb c ⟨g, hh, some (g.length, D.nb, fun r => (f r).2)⟩ r ik).map
          fun row => Function.update ex ik row) 0).map (allReduce w)).map (fun F => F r) =
      (textureSpec D major c g).mapError .diag := by
  obtain ⟨he, hown⟩ := own_states D w buf g.length _ f hf
  let val : ℕ → ℕ → ℝ := fun ik b => if b < D.nb then
    (spinExp major h c fun o => (eigVal D (g.getD ik 0) 1).2 o b).re else 0
  have hrow : ∀ r < w.size, ∀ ik ∈ rangeElems (distRange w g.length r),
      spinRow major D.nb c ⟨g, hh, some (g.length, D.nb, fun r => (f r).2)⟩ r ik = .ok (val ik) := by
    intro r hr ik hik
    unfold spinRow
    rw [mapM_all_ok _ (fun ib => (spinExp major h c fun o => (eigVal D (g.getD ik 0) 1).2 o ib).re)]
    · simp only [Except.map, Except.ok.injEq]
      funext b
      simp only [val]
      by_cases hb : b < D.nb
      · rw [List.getD_eq_getElem _ _ (by simpa using hb), if_pos hb]
        simp
      · rw [List.getD_eq_default _ _ (by simpa using hb), if_neg hb]
    · intro ib hib
      unfold stateAt
      simp only [mem_dist_lt w _ r ik hr hik, List.mem_range.1 hib, and_self, if_true, bind, Except.bind,
        hown r hr ik hik]
      rw [hnb]
      exact spinVal_eq major h c _
  have hloop : ∀ r < w.size, (rangeElems (distRange w g.length r)).foldlM (fun (ex : ℕ → ℕ → ℝ) ik =>
        (spinRow major D.nb c ⟨g, hh, some (g.length, D.nb, fun r => (f r).2)⟩ r ik).map
          fun row => Function.update ex ik row) 0 =
      .ok (fun i => if i ∈ rangeElems (distRange w g.length r) then val i else 0) := by
    intro r hr
    rw [foldlM_congr' (g := fun (ex : ℕ → ℕ → ℝ) ik => Except.ok (Function.update ex ik (val ik)))]
    · have : ∀ (L : List ℕ) (a : ℕ → ℕ → ℝ),
          L.foldlM (fun (ex : ℕ → ℕ → ℝ) ik => (Except.ok (Function.update ex ik (val ik)) : Except SpinErr _)) a =
          .ok (L.foldl (fun st i => Function.update st i (val i)) a) := by
        intro L
        induction L with
        | nil => intro a; rfl
        | cons i L ih => intro a; rw [List.foldlM_cons]; exact ih _
      rw [this, foldl_update]
      rfl
    · intro i hi s
      rw [hrow r hr i hi]
      rfl
  rw [onRanks_eq w _ (fun r i => if i ∈ rangeElems (distRange w g.length r) then val i else 0)]
  · have hno : firstErr (fun r => (rangeElems (distRange w g.length r)).foldlM (fun (ex : ℕ → ℕ → ℝ) ik =>
        (spinRow major D.nb c ⟨g, hh, some (g.length, D.nb, fun r => (f r).2)⟩ r ik).map
          fun row => Function.update ex ik row) 0) (List.range w.size) = none := by
      unfold firstErr
      rw [List.findSome?_eq_none_iff]
      intro r hr
      beta_reduce
      rw [hloop r (List.mem_range.1 hr)]
    rw [hno]
    unfold textureSpec
    rw [eigens_eq, he]
    simp only [rowsOut, Except.map, Except.mapError, Except.ok.injEq]
    rw [allReduce_rows w g.length val _ _ r hr]
    · funext i b
      by_cases hi : i < g.length
      · simp only [hi, if_true, List.getElem?_map, List.getElem?_range hi, Option.map_some, val]
        rw [show D.nb / 2 = h by omega]
      · simp [hi]
    · intro r hr
      rw [if_pos hr]
  · intro r hr b hb
    rw [hloop r hr] at hb
    simpa using hb

/-- `eval` from a fresh cache. -/
theorem eval_fresh (D : Diag) (w : World) (hk : List (Vec3 ℝ) → ℤ) (major : Bool) (c : String) (h : ℕ)
    (hnb : D.nb = 2 * h) (buf : ℕ → Buf) (s : SpinObj) (G : List (Vec3 ℝ) → Prop)
    (hs : Fresh D w hk G s) (hinj : ∀ g, G g → hk g = hk s.grid → g = s.grid) (r : ℕ) (hr : r < w.size) :
    ((evalSpin D w hk major c buf s).2).map (fun F => F r) = (textureSpec D major c s.grid).mapError .diag := by
  unfold evalSpin updateStates
  by_cases hc : s.hash ≠ some (hk s.grid)
  · rw [if_pos hc]
    dsimp only
    cases hf : calcStates D w buf s.grid.length (fun i => s.grid.getD i 0) 1 false with
    | ok f =>
      dsimp only
      exact eval_cached D w major c h hnb s.grid buf f hf _ r hr
    | error e =>
      dsimp only
      obtain ⟨st, h1, h2⟩ := states_local D w buf s.grid.length (fun i => s.grid.getD i 0) 1
      unfold calcStates at hf
      rw [h1] at hf
      unfold textureSpec
      rw [eigens_eq]
      cases he : firstErr (fun i => eigen D (s.grid.getD i 0) 1) (List.range s.grid.length) with
      | none => rw [he] at hf; simp [rowsOut, Except.map] at hf
      | some e' =>
        rw [he] at hf
        simp only [rowsOut, Except.map, Except.error.injEq] at hf
        rw [hf]
        rfl
  · rw [if_neg hc]
    rw [not_not] at hc
    rcases hs with hs | ⟨g, f, buf', hG, hg, hf, hst⟩
    · rw [hs] at hc; cases hc
    · have heq : g = s.grid := hinj g hG (by rw [hg] at hc; simpa using hc)
      subst heq
      obtain ⟨sg, sh, ss⟩ := s
      simp only at hst hf
      subst hst
      exact eval_cached D w major c h hnb sg buf' f hf _ r hr

/-- `calc_states` succeeds if all k-points can be diagonalised. -/
theorem states_ok (D : Diag) (w : World) (buf : ℕ → Buf) (n : ℕ) (kpts : ℕ → Vec3 ℝ)
    {rows : List ((ℕ → ℝ) × (ℕ → ℕ → ℂ))} (h : eigens D n kpts 1 = .ok rows) :
    ∃ f, calcStates D w buf n kpts 1 false = .ok f := by
  obtain ⟨st, h1, h2⟩ := states_local D w buf n kpts 1
  unfold calcStates
  rw [h1]
  rw [eigens_eq] at h
  cases he : firstErr (fun i => eigen D (kpts i) 1) (List.range n) with
  | some e => rw [he] at h; simp [rowsOut] at h
  | none => exact ⟨_, rfl⟩

theorem states_fail (D : Diag) (w : World) (buf : ℕ → Buf) (n : ℕ) (kpts : ℕ → Vec3 ℝ)
    {e : ParErr} (h : eigens D n kpts 1 = .error e) : calcStates D w buf n kpts 1 false = .error e := by
  obtain ⟨st, h1, h2⟩ := states_local D w buf n kpts 1
  unfold calcStates
  rw [h1]
  rw [eigens_eq] at h
  cases he : firstErr (fun i => eigen D (kpts i) 1) (List.range n) with
  | some e' => rw [he] at h; simpa [rowsOut, Except.map] using h
  | none => rw [he] at h; simp [rowsOut] at h

/-- The object after a successful diagonalisation. -/
theorem eval_obj (D : Diag) (w : World) (hk : List (Vec3 ℝ) → ℤ) (major : Bool) (c : String)
    (buf : ℕ → Buf) (s : SpinObj) (hc : s.hash ≠ some (hk s.grid))
    (f : ℕ → (ℕ → ℕ → ℝ) × (ℕ → ℕ → ℕ → ℂ))
    (hf : calcStates D w buf s.grid.length (fun i => s.grid.getD i 0) 1 false = .ok f) :
    (evalSpin D w hk major c buf s).1 = ⟨s.grid, some (hk s.grid), some (s.grid.length, D.nb, fun r => (f r).2)⟩ := by
  unfold evalSpin updateStates
  rw [if_pos hc]
  simp only [hf]

theorem fresh_eval (D : Diag) (w : World) (hk : List (Vec3 ℝ) → ℤ) (major : Bool) (c : String)
    (buf : ℕ → Buf) (G : List (Vec3 ℝ) → Prop) (s : SpinObj) (hs : Fresh D w hk G s) (hG : G s.grid)
    (hok : ∃ rows, eigens D s.grid.length (fun i => s.grid.getD i 0) 1 = .ok rows) :
    Fresh D w hk G (evalSpin D w hk major c buf s).1 ∧ (evalSpin D w hk major c buf s).1.grid = s.grid := by
  by_cases hc : s.hash ≠ some (hk s.grid)
  · obtain ⟨rows, hrows⟩ := hok
    obtain ⟨f, hf⟩ := states_ok D w buf s.grid.length _ hrows
    rw [eval_obj D w hk major c buf s hc f hf]
    exact ⟨Or.inr ⟨s.grid, f, buf, hG, rfl, hf, rfl⟩, rfl⟩
  · have : (evalSpin D w hk major c buf s).1 = s := by
      unfold evalSpin updateStates
      rw [if_neg hc]
    rw [this]
    exact ⟨hs, rfl⟩

end Verif

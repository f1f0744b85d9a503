import Verif.Proof.Spin
import Mathlib.Tactic.IntervalCases

/-! # Properties of the spin texture (C68, C94) -/

namespace Verif.Props

open Verif

/-! ## C68 -/

/-- **C68 (values).** For a state on `2 * h` spin orbitals, in both orders of the orbitals and for every
component, the value stored is the expectation value of the Pauli matrix, and that is real. -/
theorem C68_values (major : Bool) (h : ℕ) (c : String) (ψ : ℕ → ℂ) :
    ∃ x : ℝ, spinVal major (2 * h) c ((List.range (2 * h)).map ψ) = .ok x ∧ spinExp major h c ψ = x := by
  refine ⟨_, spinVal_eq major h c ψ, ?_⟩
  obtain ⟨hx, hy, hz⟩ := spinExp_xyz major h ψ
  by_cases h1 : c = "x"
  · subst h1; rw [hx, Complex.ofReal_re]
  · by_cases h2 : c = "y"
    · subst h2; rw [hy, Complex.ofReal_re]
    · have : spinExp major h c ψ = spinExp major h "z" ψ := by
        unfold spinExp pauli
        simp only [h1, h2, if_false]
        rfl
      rw [this, hz, Complex.ofReal_re]

/-- **C68 (bound).** The three values of a state satisfy `sx² + sy² + sz² ≤ (Σ |ψ|²)²`, so `≤ 1` if it is normalised. -/
theorem C68_bound (major : Bool) (h : ℕ) (ψ : ℕ → ℂ) (x y z : ℝ)
    (hx : spinVal major (2 * h) "x" ((List.range (2 * h)).map ψ) = .ok x)
    (hy : spinVal major (2 * h) "y" ((List.range (2 * h)).map ψ) = .ok y)
    (hz : spinVal major (2 * h) "z" ((List.range (2 * h)).map ψ) = .ok z) :
    x ^ 2 + y ^ 2 + z ^ 2 ≤ (∑ o ∈ Finset.range (2 * h), ‖ψ o‖ ^ 2) ^ 2 ∧
    (∑ o ∈ Finset.range (2 * h), ‖ψ o‖ ^ 2 = 1 → x ^ 2 + y ^ 2 + z ^ 2 ≤ 1) := by
  rw [spinVal_eq] at hx hy hz
  cases hx; cases hy; cases hz
  have := spin_bound major h ψ
  exact ⟨this, fun h1 => by rw [h1] at this; simpa using this⟩

/-- The state `(3/5, 4i/5)` points along `(0, 24/25, -7/25)`. -/
example : spinVal true 2 "y" [3 / 5, 4 / 5 * Complex.I] = .ok (24 / 25) ∧
    spinVal true 2 "z" [3 / 5, 4 / 5 * Complex.I] = .ok (-7 / 25) ∧ spinVal true 2 "x" [3 / 5, 4 / 5 * Complex.I] = .ok 0 := by
  refine ⟨?_, ?_, ?_⟩ <;>
  · simp [spinVal, splitSpin, npVdot, bind, Except.bind, pure, Except.pure, Except.map]
    try (simp only [map_ofNat]; norm_num)

/-- **C68 (odd number of orbitals).** Then the `x` and `y` components are refused. -/
theorem C68_odd_refused (major : Bool) (h : ℕ) (c : String) (hc : c = "x" ∨ c = "y") (st : List ℂ)
    (hst : st.length = 2 * h + 1) : spinVal major (2 * h + 1) c st = .error .shape := by
  have hne : (splitSpin major (2 * h + 1) st).1.length ≠ (splitSpin major (2 * h + 1) st).2.length := by
    unfold splitSpin slice2
    cases major <;> simp [hst] <;> omega
  unfold spinVal
  rcases hc with rfl | rfl
  · simp [npVdot, hne, bind, Except.bind, Except.map]
  · simp [npVdot, hne, bind, Except.bind, Except.map]

example : spinVal false 3 "x" [1, 2, 3] = .error .shape := C68_odd_refused false 1 "x" (.inl rfl) _ rfl

/-- **C68 (projection).** If the eigenvectors are normalised, the projection on all orbitals which `calc_bands` returns is
one for every k-point and band, on every process. -/
theorem C68_projection (D : Diag) (w : World) (buf : ℕ → Buf) (n : ℕ) (kpts : ℕ → Vec3 ℝ) (conv : ℤ)
    (orbs : List ℕ) (horbs : orbs.Perm (List.range D.nb)) (r : ℕ) (hr : r < w.size)
    (hperm : ∀ ev, (D.argsort ev).Perm (List.range D.nb))
    (hnorm : ∀ i < n, ∀ q, eigen D (kpts i) conv = .ok q → ∀ b < D.nb, ∑ o ∈ Finset.range D.nb, ‖q.2 o b‖ ^ 2 = 1)
    (bd : ℕ → (ℕ → ℕ → ℝ) × (ℕ → ℕ → ℝ)) (hok : calcBands D w buf n kpts conv (some orbs) = .ok bd)
    (i b : ℕ) (hi : i < n) (hb : b < D.nb) : (bd r).2 i b = 1 := by
  have h := bands_spec D w buf n kpts conv (some orbs) r hr
  rw [hok] at h
  unfold bandsSpec at h
  rw [eigens_eq, rowsOut_map] at h
  cases he : firstErr (fun i => eigen D (kpts i) conv) (List.range n) with
  | some e => rw [he] at h; simp [rowsOut, Except.map] at h
  | none =>
    rw [he] at h
    simp only [rowsOut, Except.map, Except.ok.injEq] at h
    have hq : eigen D (kpts i) conv = .ok (eigVal D (kpts i) conv) := by
      unfold firstErr at he
      rw [List.findSome?_eq_none_iff] at he
      have := he i (List.mem_range.2 hi)
      rcases diag_eigen D (kpts i) conv with ⟨e, h1, h2⟩ | ⟨b, h1, h2⟩
      · simp [h2] at this
      · exact h2
    rw [h]
    set q := eigVal D (kpts i) conv with hqd
    have hlen : b < (D.argsort q.1).reverse.length := by
      rw [List.length_reverse, (hperm q.1).length_eq, List.length_range]; exact hb
    simp only [List.getElem?_map, List.getElem?_range hi, Option.map_some, ← hqd, List.getElem?_eq_getElem hlen]
    have hj : (D.argsort q.1).reverse[b] < D.nb := by
      have := (hperm q.1).mem_iff.1 (List.mem_reverse.1 (List.getElem_mem hlen))
      exact List.mem_range.1 this
    rw [(horbs.map _).sum_eq, list_sum_range]
    exact hnorm i hi q hq _ hj

/-! ## C94 -/

/-- The grid in force after a history of calls. -/
def lastGrid (g0 : List (Vec3 ℝ)) (ops : List SpinOp) : List (Vec3 ℝ) :=
  ops.foldl (fun g op => match op with | .grid ks => ks | _ => g) g0

/-- The grids met in a history of calls. -/
def gridsOf (g0 : List (Vec3 ℝ)) (ops : List SpinOp) : List (List (Vec3 ℝ)) :=
  g0 :: ops.filterMap fun op => match op with | .grid ks => some ks | _ => none

theorem lastGrid_mem (ops : List SpinOp) : ∀ g0, lastGrid g0 ops ∈ gridsOf g0 ops := by
  induction ops with
  | nil => intro g0; simp [lastGrid, gridsOf]
  | cons op ops ih =>
    intro g0
    unfold lastGrid gridsOf at *
    rw [List.foldl_cons]
    cases op with
    | grid ks => exact List.mem_cons_of_mem _ (ih ks)
    | cell D => exact ih g0
    | eval c b => exact ih g0

/-- **C94 (partial).** After any history of evaluations and changes of the k-grid, `eval` gives on every process the
spin texture of the cell on the current grid.  Missing: changes of the cell (`C94_stale_cell`), grids on which the
diagonalisation fails (`C94_failed_update`), and grids with the same hash. -/
theorem C94_texture_partial (D : Diag) (w : World) (hk : List (Vec3 ℝ) → ℤ) (major : Bool) (h : ℕ) (hnb : D.nb = 2 * h)
    (g0 : List (Vec3 ℝ)) (ops : List SpinOp) (hcell : ∀ op ∈ ops, ∀ D', op ≠ .cell D')
    (hok : ∀ g ∈ gridsOf g0 ops, ∃ rows, eigens D g.length (fun i => g.getD i 0) 1 = .ok rows)
    (hinj : ∀ g ∈ gridsOf g0 ops, ∀ g' ∈ gridsOf g0 ops, hk g = hk g' → g = g')
    (c : String) (buf : ℕ → Buf) (r : ℕ) (hr : r < w.size) :
    let p := ops.foldl (SpinOp.run w hk major) (D, SpinObj.init g0)
    ((evalSpin p.1 w hk major c buf p.2).2).map (fun F => F r) =
      (textureSpec D major c (lastGrid g0 ops)).mapError .diag := by
  have key : ∀ (ops' : List SpinOp) (G : List (Vec3 ℝ) → Prop) (s : SpinObj), (∀ op ∈ ops', ∀ D', op ≠ .cell D') →
      Fresh D w hk G s → (∀ g ∈ gridsOf s.grid ops', G g) →
      (∀ g, G g → ∃ rows, eigens D g.length (fun i => g.getD i 0) 1 = .ok rows) →
      (ops'.foldl (SpinOp.run w hk major) (D, s)).1 = D ∧
      Fresh D w hk G (ops'.foldl (SpinOp.run w hk major) (D, s)).2 ∧
      (ops'.foldl (SpinOp.run w hk major) (D, s)).2.grid = lastGrid s.grid ops' := by
    intro ops'
    induction ops' with
    | nil => intro G s _ hs _ _; exact ⟨rfl, hs, rfl⟩
    | cons op ops' ih =>
      intro G s hc hs hG hGok
      rw [List.foldl_cons]
      have hc' : ∀ op ∈ ops', ∀ D', op ≠ .cell D' := fun o ho => hc o (List.mem_cons_of_mem _ ho)
      cases op with
      | grid ks =>
        exact ih G (s.setGrid ks) hc' hs (fun g hg => hG g (List.mem_cons_of_mem _ hg)) hGok
      | cell D' => exact absurd rfl (hc _ (List.mem_cons_self ..) D')
      | eval c b =>
        obtain ⟨h1, h2⟩ := fresh_eval D w hk major c b G s hs (hG _ (List.mem_cons_self ..))
          (hGok _ (hG _ (List.mem_cons_self ..)))
        have := ih G (evalSpin D w hk major c b s).1 hc' h1 (by rw [h2]; exact hG) hGok
        rw [h2] at this
        exact this
  obtain ⟨h1, h2, h3⟩ := key ops (· ∈ gridsOf g0 ops) (SpinObj.init g0) hcell (.inl rfl) (fun g hg => hg) hok
  intro p
  have h1' : p.1 = D := h1
  have h3' : p.2.grid = lastGrid g0 ops := h3
  rw [h1', eval_fresh D w hk major c h hnb buf p.2 _ h2 ?_ r hr, h3']
  intro g hg hh
  rw [h3'] at hh ⊢
  exact hinj g hg _ (lastGrid_mem ops g0) hh

/-- **C94 fails when the cell changes**: whatever the cells, a second evaluation on the same grid repeats the texture of
the old cell. -/
theorem C94_stale_cell (D D' : Diag) (w : World) (hk : List (Vec3 ℝ) → ℤ) (major : Bool) (h : ℕ) (hnb : D.nb = 2 * h)
    (hnb' : D'.nb = D.nb) (g : List (Vec3 ℝ)) (hok : ∃ rows, eigens D g.length (fun i => g.getD i 0) 1 = .ok rows)
    (c c' : String) (buf buf' : ℕ → Buf) (r : ℕ) (hr : r < w.size) :
    ((evalSpin D' w hk major c buf' (evalSpin D w hk major c' buf (SpinObj.init g)).1).2).map (fun F => F r) =
      (textureSpec D major c g).mapError .diag := by
  obtain ⟨rows, hrows⟩ := hok
  obtain ⟨f, hf⟩ := states_ok D w buf g.length _ hrows
  rw [eval_obj D w hk major c' buf (SpinObj.init g) (by simp [SpinObj.init]) f hf]
  unfold evalSpin updateStates
  rw [if_neg (by simp [SpinObj.init])]
  dsimp only
  rw [hnb']
  exact eval_cached D w major c h hnb g buf f hf _ r hr

/-- **C94 fails after an error**: if the diagonalisation on a new grid raises, the next evaluation does not raise again
but returns the texture of the previous grid. -/
theorem C94_failed_update (D : Diag) (w : World) (hk : List (Vec3 ℝ) → ℤ) (major : Bool) (h : ℕ) (hnb : D.nb = 2 * h)
    (g g' : List (Vec3 ℝ)) (hok : ∃ rows, eigens D g.length (fun i => g.getD i 0) 1 = .ok rows) (e : ParErr)
    (hfail : eigens D g'.length (fun i => g'.getD i 0) 1 = .error e) (hlen : g'.length = g.length)
    (hne : hk g ≠ hk g') (c c' : String) (b1 b2 b3 : ℕ → Buf) (r : ℕ) (hr : r < w.size) :
    let s1 := (evalSpin D w hk major c' b1 (SpinObj.init g)).1
    let second := evalSpin D w hk major c b2 (s1.setGrid g')
    second.2.map (fun F => F r) = .error (.diag e) ∧
    ((evalSpin D w hk major c b3 second.1).2).map (fun F => F r) = (textureSpec D major c g).mapError .diag := by
  obtain ⟨rows, hrows⟩ := hok
  obtain ⟨f, hf⟩ := states_ok D w b1 g.length _ hrows
  intro s1 second
  have hs1 : s1 = ⟨g, some (hk g), some (g.length, D.nb, fun r => (f r).2)⟩ :=
    eval_obj D w hk major c' b1 (SpinObj.init g) (by simp [SpinObj.init]) f hf
  have h2 : second = (⟨g', some (hk g'), some (g.length, D.nb, fun r => (f r).2)⟩, .error (.diag e)) := by
    show evalSpin D w hk major c b2 (s1.setGrid g') = _
    rw [hs1]
    unfold evalSpin updateStates SpinObj.setGrid
    rw [if_pos (by simpa using hne)]
    simp only [states_fail D w b2 g'.length _ hfail]
  rw [h2]
  refine ⟨rfl, ?_⟩
  unfold evalSpin updateStates
  rw [if_neg (by simp)]
  dsimp only
  rw [hlen]
  exact eval_cached D w major c h hnb g b1 f hf (some (hk g)) r hr

/-- Two spin orbitals; band `b` is spin `b` or, if `swap`, the other one; `k_x > 1` cannot be diagonalised. -/
noncomputable def twoSpin (swap : Bool) : Diag where
  nb := 2
  setHam k _ h := .ok (fun a b => h a b + k 0)
  zheev h := if (h 0 0).re > 1 then none else some (0, fun o b => if (o = b) = (swap = false) then 1 else 0)
  argsort _ := [0, 1]

theorem twoSpin_eigens (swap : Bool) (k : Vec3 ℝ) (hk : k 0 ≤ 1) :
    eigens (twoSpin swap) [k].length (fun i => [k].getD i 0) 1 =
      .ok [(0, fun o b => if (o = b) = (swap = false) then 1 else 0)] := by
  have : eigen (twoSpin swap) k 1 = .ok (0, fun o b => if (o = b) = (swap = false) then 1 else 0) := by
    unfold eigen twoSpin
    simp [not_lt.2 hk]
  unfold eigens
  show (do let a ← eigen (twoSpin swap) k 1; pure [a]) = _
  rw [this]
  rfl

/-- The two cells have opposite textures, so the repeated texture of `C94_stale_cell` is wrong. -/
theorem C94_stale_cell_wrong :
    textureSpec (twoSpin false) true "z" [0] ≠ textureSpec (twoSpin true) true "z" [0] := by
  unfold textureSpec
  rw [twoSpin_eigens _ _ (by simp), twoSpin_eigens _ _ (by simp)]
  intro h
  simp only [Except.map, Except.ok.injEq] at h
  have := congrFun (congrFun h 0) 0
  simp [twoSpin, spinExp, pauli, spinIdx, Fin.sum_univ_two] at this
  norm_num at this

/-- The hypotheses of `C94_failed_update` are met: `k_x = 0` can and `k_x = 2` cannot be diagonalised. -/
example : (∃ rows, eigens (twoSpin false) 1 (fun i => [(0 : Vec3 ℝ)].getD i 0) 1 = .ok rows) ∧
    eigens (twoSpin false) 1 (fun i => [(fun _ => 2 : Vec3 ℝ)].getD i 0) 1 = .error .runtime := by
  refine ⟨⟨_, twoSpin_eigens false 0 (by simp)⟩, ?_⟩
  have : eigen (twoSpin false) (fun _ => 2) 1 = .error .runtime := by
    unfold eigen twoSpin
    simp
  unfold eigens
  show (do let a ← eigen (twoSpin false) (fun _ => 2) 1; pure [a]) = _
  rw [this]
  rfl

end Verif.Props

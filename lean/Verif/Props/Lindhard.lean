import Verif.Proof.LindhardRun
import Verif.Props.Bloch

/-!
# Lindhard calculator: C45, C47, C48, C49, C76

`regSpec` and `arbSpec` (`Spec/Lindhard.lean`) are the tables of the Lindhard sums, without processes and
backends.
-/

namespace Verif.Props
open Verif

/-! ## C47: the map from k to k + q -/

/-- C47: the mesh lists all its points once, in an order given by the mixed-radix index. -/
theorem C47_mesh (m : ℕ × ℕ × ℕ) :
    (buildKmeshGrid m).Nodup ∧
    (∀ g : Grid, g ∈ buildKmeshGrid m ↔
      (0 ≤ g.1 ∧ g.1 < m.1) ∧ (0 ≤ g.2.1 ∧ g.2.1 < m.2.1) ∧ (0 ≤ g.2.2 ∧ g.2.2 < m.2.2)) ∧
    ∀ a b c : ℕ, a < m.1 → b < m.2.1 → c < m.2.2 →
      (buildKmeshGrid m)[a * m.2.1 * m.2.2 + b * m.2.2 + c]? = some ((a : ℤ), (b : ℤ), (c : ℤ)) :=
  ⟨kmesh_nodup m, kmesh_mem m, kmesh_get m⟩

/-- C47: the entry of every mesh point `k` is the position of the mesh point equal to `k + q` modulo the mesh,
for every integer q. -/
theorem C47_target (m : ℕ × ℕ × ℕ) (q : Grid) :
    (buildKqMap m (buildKmeshGrid m) q).length = (buildKmeshGrid m).length ∧
    ∀ (i : ℕ) (k : Grid), (buildKmeshGrid m)[i]? = some k →
      ∃ (j : ℕ) (k' : Grid), (buildKqMap m (buildKmeshGrid m) q)[i]? = some (j : ℤ) ∧ (buildKmeshGrid m)[j]? = some k' ∧
        (m.1 : ℤ) ∣ k.1 + q.1 - k'.1 ∧ (m.2.1 : ℤ) ∣ k.2.1 + q.2.1 - k'.2.1 ∧ (m.2.2 : ℤ) ∣ k.2.2 + q.2.2 - k'.2.2 := by
  refine ⟨by simp [buildKqMap], fun i k h => ?_⟩
  obtain ⟨h1, h2⟩ := kmesh_kq m q k (List.mem_of_getElem? h)
  refine ⟨(kqIndex m q k).toNat, _, ?_, h2, ?_, ?_, ?_⟩
  · rw [buildKqMap, List.getElem?_map, h, Int.toNat_of_nonneg h1]
    rfl
  all_goals exact Int.dvd_self_sub_emod

/-- C47: the map is a permutation of the mesh. -/
theorem C47_bijection (m : ℕ × ℕ × ℕ) (q : Grid) :
    (buildKqMap m (buildKmeshGrid m) q).Perm ((List.range (buildKmeshGrid m).length).map fun i : ℕ => (i : ℤ)) := by
  have hnd : (buildKqMap m (buildKmeshGrid m) q).Nodup := by
    refine List.Nodup.map_on ?_ (kmesh_nodup m)
    intro g hg g' hg' h
    have h1 := (kmesh_kq m q g hg).2
    have h2 := (kmesh_kq m q g' hg').2
    rw [h, h2] at h1
    obtain ⟨⟨a1, a2⟩, ⟨a3, a4⟩, a5, a6⟩ := (kmesh_mem m g).1 hg
    obtain ⟨⟨b1, b2⟩, ⟨b3, b4⟩, b5, b6⟩ := (kmesh_mem m g').1 hg'
    simp only [wrapSum, Option.some.injEq, Prod.mk.injEq] at h1
    have key : ∀ (x y z n : ℤ), 0 ≤ x → x < n → 0 ≤ y → y < n → (y + z) % n = (x + z) % n → x = y := by
      intro x y z n h1 h2 h3 h4 h5
      have h6 : y % n = x % n := Int.emod_eq_emod_iff_emod_sub_eq_zero.2 (by
        have := Int.emod_eq_emod_iff_emod_sub_eq_zero.1 h5
        rwa [add_sub_add_right_eq_sub] at this)
      rw [Int.emod_eq_of_lt h1 h2, Int.emod_eq_of_lt h3 h4] at h6
      exact h6.symm
    refine Prod.ext ?_ (Prod.ext ?_ ?_)
    · exact key _ _ _ _ a1 a2 b1 b2 h1.1
    · exact key _ _ _ _ a3 a4 b3 b4 h1.2.1
    · exact key _ _ _ _ a5 a6 b5 b6 h1.2.2
  refine ((List.subperm_of_subset hnd ?_).perm_of_length_le (by simp [buildKqMap]))
  intro x hx
  obtain ⟨g, hg, rfl⟩ := List.mem_map.1 hx
  obtain ⟨h1, h2⟩ := kmesh_kq m q g hg
  exact List.mem_map.2 ⟨_, List.mem_range.2 (List.getElem?_eq_some_iff.1 h2).1, Int.toNat_of_nonneg h1⟩

example : buildKmeshGrid (2, 3, 1) = [(0, 0, 0), (0, 1, 0), (0, 2, 0), (1, 0, 0), (1, 1, 0), (1, 2, 0)] := by decide
example : buildKqMap (2, 3, 1) (buildKmeshGrid (2, 3, 1)) (-1, -5, 7) = [4, 5, 3, 1, 2, 0] := by decide

/-! ## C48: wrapping -/

theorem wrapUpFrac_eq (k : ℝ) : ∃ n : ℤ, wrapUpFrac k = k + n ∧ 0 ≤ wrapUpFrac k ∧ (k < 0 → wrapUpFrac k < 1) := by
  fun_induction wrapUpFrac k with
  | case1 k h ih =>
    obtain ⟨n, h1, h2, h3⟩ := ih
    refine ⟨n + 1, by rw [h1]; push_cast; ring, h2, fun _ => ?_⟩
    by_cases hk : k + 1 < 0
    · exact h3 hk
    · rw [wrapUpFrac, if_neg hk]
      linarith
  | case2 k h => exact ⟨0, by simp, by linarith, fun h' => absurd h' h⟩

theorem wrapDownFrac_eq (k : ℝ) (hk : 0 ≤ k) : ∃ n : ℤ, wrapDownFrac k = k + n ∧ 0 ≤ wrapDownFrac k ∧ wrapDownFrac k < 1 := by
  fun_induction wrapDownFrac k with
  | case1 k h ih =>
    obtain ⟨n, h1, h2, h3⟩ := ih (by linarith)
    exact ⟨n - 1, by rw [h1]; push_cast; ring, h2, h3⟩
  | case2 k h => exact ⟨0, by simp, hk, by linarith⟩

/-- C48: the wrapped coordinates lie in [0, 1) and differ from the given ones by integers (real arithmetic, where both
loops end). -/
theorem C48_frac (ks : List (Vec3 ℝ)) :
    (wrapFrac ks).length = ks.length ∧
    ∀ (i : ℕ) (k : Vec3 ℝ), ks[i]? = some k → ∃ k', (wrapFrac ks)[i]? = some k' ∧
      ∀ x, 0 ≤ k' x ∧ k' x < 1 ∧ ∃ n : ℤ, k x - k' x = n := by
  refine ⟨by simp [wrapFrac], fun i k h => ⟨fun x => wrapDownFrac (wrapUpFrac (k x)), by simp [wrapFrac, h], fun x => ?_⟩⟩
  obtain ⟨n, h1, h2, _⟩ := wrapUpFrac_eq (k x)
  obtain ⟨n', h3, h4, h5⟩ := wrapDownFrac_eq (wrapUpFrac (k x)) h2
  exact ⟨h4, h5, -(n + n'), by simp only; rw [h3, h1]; push_cast; ring⟩

/-- C48: with rounding the loop does not end for coordinates whose difference to the next number is so large that
subtracting one changes nothing: after any number of passes the value is the same and the loop goes on.  `rnd` is
the rounding of a float operation. -/
theorem C48_frac_rounding_loop (rnd : ℝ → ℝ) (x : ℝ) (hx : 1 ≤ x) (h : rnd (x - 1) = x) (n : ℕ) :
    (fun k => rnd (k - 1))^[n] x = x ∧ 1 ≤ (fun k => rnd (k - 1))^[n] x := by
  have : (fun k => rnd (k - 1))^[n] x = x := Function.iterate_fixed h n
  exact ⟨this, by rw [this]; exact hx⟩

/-- Rounding to multiples of four, as for doubles just above `2 ^ 54`. -/
example : (fun y : ℝ => 4 * (⌊y / 4 + 1 / 2⌋ : ℝ)) (2 ^ 54 - 1) = 2 ^ 54 := by
  have : ⌊((2 : ℝ) ^ 54 - 1) / 4 + 1 / 2⌋ = 2 ^ 52 := by
    rw [Int.floor_eq_iff]; norm_num
  simp only [this]
  norm_num

/-- C48: the wrapped grid coordinates lie on the mesh and differ from the given ones by multiples of its size. -/
theorem C48_grid (m : ℕ × ℕ × ℕ) (hm : 0 < m.1 ∧ 0 < m.2.1 ∧ 0 < m.2.2) (ks : List Grid) :
    (wrapGrid m ks).length = ks.length ∧
    ∀ (i : ℕ) (k : Grid), ks[i]? = some k → ∃ k', (wrapGrid m ks)[i]? = some k' ∧
      (0 ≤ k'.1 ∧ k'.1 < m.1 ∧ (m.1 : ℤ) ∣ k.1 - k'.1) ∧ (0 ≤ k'.2.1 ∧ k'.2.1 < m.2.1 ∧ (m.2.1 : ℤ) ∣ k.2.1 - k'.2.1) ∧
      (0 ≤ k'.2.2 ∧ k'.2.2 < m.2.2 ∧ (m.2.2 : ℤ) ∣ k.2.2 - k'.2.2) := by
  refine ⟨by simp [wrapGrid], fun i k h => ⟨(k.1.fmod m.1, k.2.1.fmod m.2.1, k.2.2.fmod m.2.2),
    by simp [wrapGrid, h], ?_⟩⟩
  have key : ∀ (x : ℤ) (n : ℕ), 0 < n → 0 ≤ x.fmod n ∧ x.fmod n < n ∧ (n : ℤ) ∣ x - x.fmod n := by
    intro x n hn
    rw [Int.fmod_eq_emod_of_nonneg _ (by omega)]
    exact ⟨Int.emod_nonneg _ (by omega), Int.emod_lt_of_pos _ (by omega), Int.dvd_self_sub_emod⟩
  exact ⟨key _ _ hm.1, key _ _ hm.2.1, key _ _ hm.2.2⟩

example : wrapGrid (2, 3, 1) [(-1, 7, -4)] = [(1, 1, 0)] := by decide

/-! ## C45: several processes -/

/-- C45 (what the code computes): on every process, row `iq` of the dynamic polarizability is the right one times
`size ^ (number of q-points - 1 - iq)`, because the whole table is summed over the processes after every q-point.  Exceptions
are those of the specification. -/
theorem C45_rows (L : Lind) (w : World) (buf : ℕ → Buf) (fortran : Bool)
    (hd : L.dim = 2 ∨ L.dim = 3) (hn : w.size ≤ L.numKpt) (r : ℕ) (hr : r < w.size) :
    (∀ qs, (L.dynPolRegular w buf fortran qs).map (fun d => d r) =
      (regSpec L qs).map fun t iq iw => (w.size : ℂ) ^ (qs.length - 1 - iq) * t iq iw) ∧
    (∀ qs, (L.dynPolArbitrary w buf fortran qs).map (fun d => d r) =
      (arbSpec L qs).map fun t iq iw => (w.size : ℂ) ^ (qs.length - 1 - iq) * t iq iw) :=
  ⟨fun qs => regular_run L w buf fortran qs hd hn r hr, fun qs => arbitrary_run L w buf fortran qs hd hn r hr⟩

/-- C45: right for one process or one q-point.  Missing: several q-points on several processes, where the claim is
false (`C45_wrong`), and more processes than k-points, where the call fails (`C45_refused`). -/
theorem C45_partial (L : Lind) (w : World) (buf : ℕ → Buf) (fortran : Bool)
    (hd : L.dim = 2 ∨ L.dim = 3) (hn : w.size ≤ L.numKpt) (r : ℕ) (hr : r < w.size) :
    (∀ qs, w.size = 1 ∨ qs.length ≤ 1 → (L.dynPolRegular w buf fortran qs).map (fun d => d r) = regSpec L qs) ∧
    (∀ qs, w.size = 1 ∨ qs.length ≤ 1 → (L.dynPolArbitrary w buf fortran qs).map (fun d => d r) = arbSpec L qs) := by
  have key : ∀ (x : Except ParErr (ℕ → ℕ → ℂ)) (n : ℕ), w.size = 1 ∨ n ≤ 1 →
      (x.map fun t iq iw => (w.size : ℂ) ^ (n - 1 - iq) * t iq iw) = x := by
    intro x n h
    cases x with
    | error e => rfl
    | ok t =>
      simp only [Except.map, Except.ok.injEq]
      funext iq iw
      rcases h with h | h
      · simp [h]
      · simp [show n - 1 - iq = 0 by omega]
  obtain ⟨h1, h2⟩ := C45_rows L w buf fortran hd hn r hr
  exact ⟨fun qs h => by rw [h1 qs, key _ _ h], fun qs h => by rw [h2 qs, key _ _ h]⟩

/-- C45 is false: with at least two processes, every nonzero value at a q-point that is not the last one is wrong,
on every process, for both functions. -/
theorem C45_wrong (L : Lind) (w : World) (buf : ℕ → Buf) (fortran : Bool)
    (hd : L.dim = 2 ∨ L.dim = 3) (hn : w.size ≤ L.numKpt) (hw : 2 ≤ w.size) (r : ℕ) (hr : r < w.size) (iq iw : ℕ)
    (t : ℕ → ℕ → ℂ) (ht : t iq iw ≠ 0) :
    (∀ qs, iq + 1 < qs.length → regSpec L qs = .ok t →
      ∃ d, L.dynPolRegular w buf fortran qs = .ok d ∧ d r iq iw ≠ t iq iw) ∧
    (∀ qs, iq + 1 < qs.length → arbSpec L qs = .ok t →
      ∃ d, L.dynPolArbitrary w buf fortran qs = .ok d ∧ d r iq iw ≠ t iq iw) := by
  have key : ∀ n, iq + 1 < n → (w.size : ℂ) ^ (n - 1 - iq) * t iq iw ≠ t iq iw := by
    intro n h e
    have h1 : (w.size : ℂ) ^ (n - 1 - iq) = 1 := by
      have := mul_right_cancel₀ ht (e.trans (one_mul _).symm)
      exact this
    have h2 : w.size ^ (n - 1 - iq) = 1 := by exact_mod_cast h1
    have h3 : 1 < w.size ^ (n - 1 - iq) := Nat.one_lt_pow (by omega) (by omega)
    omega
  obtain ⟨h1, h2⟩ := C45_rows L w buf fortran hd hn r hr
  constructor
  · intro qs hq h
    have := h1 qs
    rw [h] at this
    obtain ⟨d, e1, e2⟩ := map_eq_ok this
    exact ⟨d, e1, by rw [e2]; exact key _ hq⟩
  · intro qs hq h
    have := h2 qs
    rw [h] at this
    obtain ⟨d, e1, e2⟩ := map_eq_ok this
    exact ⟨d, e1, by rw [e2]; exact key _ hq⟩

/-- C45: with more processes than k-points the calculation ends with an exception although it is possible on one
process. -/
theorem C45_refused (L : Lind) (w : World) (buf : ℕ → Buf) (fortran : Bool) (hn : L.numKpt < w.size) :
    (∀ qs d, L.dynPolRegular w buf fortran qs ≠ .ok d) ∧ (∀ qs d, L.dynPolArbitrary w buf fortran qs ≠ .ok d) := by
  have hb : ∀ bd, (onRanks w fun r => distBound w L.numKpt r) ≠ .ok bd := by
    intro bd h
    obtain ⟨l, h1, h2⟩ := map_eq_ok h
    rw [mapM_except, rowsOut_ok, firstErr_none] at h1
    obtain ⟨v, hv⟩ := h1.1 L.numKpt (List.mem_range.2 hn)
    rw [(C43_dist_bound w L.numKpt L.numKpt hn).1.2 le_rfl] at hv
    cases hv
  constructor
  · intro qs d h
    simp only [Lind.dynPolRegular, bind, Except.bind] at h
    repeat' split at h
    all_goals first | exact absurd ‹_› (hb _) | cases h
  · intro qs d h
    simp only [Lind.dynPolArbitrary, bind, Except.bind] at h
    repeat' split at h
    all_goals first | exact absurd ‹_› (hb _) | cases h

/-- A one-orbital cell with energies 0 and 1/2 on a mesh of two k-points. -/
noncomputable def twoK : Lind where
  D := kxDiag
  lat := 1
  orbPos := fun _ => 0
  mesh := (2, 1, 1)
  omegas := [0]
  beta := 1
  mu := 0
  delta := 1
  gs := 1
  ext := 1
  dim := 3

theorem kx_eigen (k : Vec3 ℝ) : eigen kxDiag k 2 = .ok (fun _ => k 0, fun _ _ => 1) := by
  unfold eigen kxDiag
  simp

theorem kx_states (n : ℕ) (kp : ℕ → Vec3 ℝ) : statesSpec kxDiag n kp 2 =
    .ok (fun i _ => if i < n then kp i 0 else 0, fun i _ _ => if i < n then 1 else 0) := by
  rw [statesSpec_eq, rowsOut_ok, firstErr_none]
  refine ⟨fun i _ => ⟨_, kx_eigen _⟩, ?_⟩
  simp only [eigVal, kx_eigen, Except.toOption, Option.getD_some]

theorem twoK_value : ∃ t, regSpec twoK [(1, 0, 0), (1, 0, 0)] = .ok t ∧ t 0 0 ≠ 0 := by
  have hdet : twoK.lat.det ≠ 0 := by simp [twoK]
  have hkq : ∀ q, statesKq twoK q = _ := fun q => kx_states _ _
  have hs : statesSpec twoK.D twoK.numKpt twoK.kFrac 2 = _ := kx_states _ _
  have hss : [((1, 0, 0) : Grid), (1, 0, 0)].mapM (statesKq twoK) = _ :=
    mapM_ok _ _ [((1, 0, 0) : Grid), (1, 0, 0)] (fun q _ => hkq q)
  simp only [regSpec, Lind.frac2cart, recip_some _ hdet, hs, hss, bind, Except.bind]
  refine ⟨_, rfl, ?_⟩
  have hg : buildKmeshGrid twoK.mesh = [(0, 0, 0), (1, 0, 0)] := by decide
  have hn : twoK.numKpt = 2 := by rw [Lind.numKpt, hg]; rfl
  have hf : lindhardFactor twoK = 1 / 2 := by simp [lindhardFactor, twoK]
  have hov : ∀ (q : Vec3 ℝ), overlapSq 1 q (fun _ => 0) (fun _ => 1) (fun _ => 1) = 1 := by
    intro q
    simp [overlapSq]
  have hlt : Real.exp (2 : ℝ)⁻¹ ≠ 1 := by
    have : 1 < Real.exp (2 : ℝ)⁻¹ := Real.one_lt_exp_iff.2 (by norm_num)
    linarith
  have he : (1 + Real.exp (2 : ℝ)⁻¹) ≠ 0 := by positivity
  simp only [List.map_cons, List.map_nil, frac2cart, List.zip_cons_cons, lindhardTable, List.getElem?_cons_zero, hf, hn]
  have hval : ∀ q, lindhardSum twoK 2
      (fun i _ => if i < 2 then twoK.kFrac i 0 else 0, fun i _ _ => if i < 2 then 1 else 0)
      (fun i _ => if i < 2 then twoK.grid2frac (wrapSum twoK.mesh ((buildKmeshGrid twoK.mesh).getD i (0, 0, 0)) (1, 0, 0)) 0 else 0,
        fun i _ _ => if i < 2 then 1 else 0) q 0 = ((-(4 / 5) * (1 / 2 - 1 / (1 + Real.exp (2 : ℝ)⁻¹)) : ℝ) : ℂ) := by
    intro q
    simp only [lindhardSum, Lind.kFrac, hg]
    simp [twoK, kxDiag, Finset.sum_range_succ, wrapSum, Lind.grid2frac, hov]
    norm_num
    have h1 : (-(1 / 2) + Complex.I : ℂ) ≠ 0 := by
      intro h; have := congrArg Complex.im h; simp at this
    have h2 : (1 / 2 + Complex.I : ℂ) ≠ 0 := by
      intro h; have := congrArg Complex.im h; simp at this
    generalize (1 + Complex.exp (1 / 2))⁻¹ = y
    rw [div_add_div _ _ h1 h2, div_eq_iff (mul_ne_zero h1 h2)]
    linear_combination (4 / 5) * (1 / 2 - y) * Complex.I_sq
  have ho : twoK.omegas[0]? = some 0 := rfl
  simp only [ho]
  rw [hval]
  have hne : -(4 / 5) * (1 / 2 - 1 / (1 + Real.exp (2 : ℝ)⁻¹)) ≠ 0 := by
    intro h
    field_simp at h
    apply hlt
    linarith
  refine div_ne_zero (mul_ne_zero (Complex.ofReal_ne_zero.2 hne) ?_) ?_
  · norm_num
  · simp [twoK]

/-- Two processes, two q-points: the first row is wrong on both processes. -/
theorem C45_wrong_example (buf : ℕ → Buf) (fortran : Bool) (w : World) (hw : w.size = 2) (r : ℕ) (hr : r < 2) :
    ∃ t d, regSpec twoK [(1, 0, 0), (1, 0, 0)] = .ok t ∧
      twoK.dynPolRegular w buf fortran [(1, 0, 0), (1, 0, 0)] = .ok d ∧ d r 0 0 ≠ t 0 0 := by
  obtain ⟨t, h1, h2⟩ := twoK_value
  have hn : twoK.numKpt = 2 := by decide
  obtain ⟨d, h3, h4⟩ := (C45_wrong twoK w buf fortran (Or.inr rfl) (by omega) (by omega) r (by omega) 0 0 t h2).1
    [(1, 0, 0), (1, 0, 0)] (by decide) h1
  exact ⟨t, d, h1, h3, h4⟩

/-! ## C49: q-points on the mesh -/

theorem frac_wrap (L : Lind) (hm : 0 < L.mesh.1 ∧ 0 < L.mesh.2.1 ∧ 0 < L.mesh.2.2) (k q : Grid) :
    ∃ G : Fin 3 → ℤ, L.grid2frac k + L.grid2frac q = fun x => L.grid2frac (wrapSum L.mesh k q) x + G x := by
  refine ⟨![(k.1 + q.1) / L.mesh.1, (k.2.1 + q.2.1) / L.mesh.2.1, (k.2.2 + q.2.2) / L.mesh.2.2], ?_⟩
  have key : ∀ (x y : ℤ) (n : ℕ), 0 < n → (x : ℝ) / n + (y : ℝ) / n = (((x + y) % (n : ℤ) : ℤ) : ℝ) / n + (((x + y) / (n : ℤ) : ℤ) : ℝ) := by
    intro x y n hn
    have hn' : (n : ℝ) ≠ 0 := by exact_mod_cast hn.ne'
    have h : (((x + y) % (n : ℤ) : ℤ) : ℝ) + n * (((x + y) / (n : ℤ) : ℤ) : ℝ) = x + y := by
      exact_mod_cast Int.emod_add_mul_ediv (x + y) n
    field_simp
    linarith
  funext x
  fin_cases x
  · exact key _ _ _ hm.1
  · exact key _ _ _ hm.2.1
  · exact key _ _ _ hm.2.2

/-- C49: for q-points on the mesh, given to one function by grid coordinates and to the other by the Cartesian coordinates
of the same points, both functions return the same on every process, whatever the backends, if the Hamiltonian is that of
a cell (`setHam`, any orbitals and hopping terms), the overlap, if there is one, too, and the eigensolver any function of
the matrices. -/
theorem C49_agree (L : Lind) (w : World) (buf buf' : ℕ → Buf) (fortran fortran' : Bool) (qs : List Grid)
    (hd : L.dim = 2 ∨ L.dim = 3) (hn : w.size ≤ L.numKpt) (hdet : L.lat.det ≠ 0)
    (pos : ℤ → Vec3 ℝ) (eng : List ℝ) (hops : List (Cell × Pair × ℂ))
    (hD : ∀ k h, L.D.setHam k 2 h = .ok (setHam pos eng hops 2 k h))
    (hO : ∀ f, L.D.setOvl = some f → ∃ (pos' : ℤ → Vec3 ℝ) (eng' : List ℝ) (hops' : List (Cell × Pair × ℂ)),
      ∀ k h, f k 2 h = .ok (setHam pos' eng' hops' 2 k h)) :
    ∃ qc, L.frac2cart (qs.map L.grid2frac) = .ok qc ∧ ∀ r < w.size,
      (L.dynPolArbitrary w buf fortran qc).map (fun d => d r) = (L.dynPolRegular w buf' fortran' qs).map (fun d => d r) := by
  have hm := numKpt_pos L (lt_of_lt_of_le w.pos hn)
  set B : Mat3 ℝ := Matrix.of fun i j => 2 * Real.pi * L.lat⁻¹ j i with hB
  have hqc : L.frac2cart (qs.map L.grid2frac) = .ok (frac2cart B (qs.map L.grid2frac) 0) := by
    simp only [Lind.frac2cart, recip_some _ hdet]
    rfl
  refine ⟨_, hqc, fun r hr => ?_⟩
  have hBd : B.det ≠ 0 := by
    have : B = (2 * Real.pi) • (L.lat⁻¹).transpose := by
      ext i j; simp [hB]
    rw [this, Matrix.det_smul, Matrix.det_transpose, Matrix.det_nonsing_inv]
    have h2 : Ring.inverse L.lat.det ≠ 0 := by
      rw [Ring.inverse_eq_inv']
      exact inv_ne_zero hdet
    have : (2 * Real.pi) ≠ 0 := by positivity
    exact mul_ne_zero (pow_ne_zero _ this) h2
  have hqf : L.cart2frac (frac2cart B (qs.map L.grid2frac) 0) = .ok (qs.map L.grid2frac) := by
    simp only [Lind.cart2frac, recip_some _ hdet, ← hB, C36_frac_cart_frac hBd]
  have hst : ∀ q : Grid, statesSpec L.D L.numKpt (fun i => L.kFrac i + L.grid2frac q) 2 = statesKq L q := by
    intro q
    have : ∀ i, eigen L.D (L.kFrac i + L.grid2frac q) 2 =
        eigen L.D (L.grid2frac (wrapSum L.mesh ((buildKmeshGrid L.mesh).getD i (0, 0, 0)) q)) 2 := by
      intro i
      obtain ⟨G, hG⟩ := frac_wrap L hm ((buildKmeshGrid L.mesh).getD i (0, 0, 0)) q
      have hz : ∀ k, L.D.setHam k 2 (fun _ _ => 0) = .ok (setHam pos eng hops 2 k IMat.zero) := fun k => hD k _
      rw [Lind.kFrac, hG, eigen, eigen, hz, hz, (C11_periodic pos eng hops _ G 0).1]
      cases hS : L.D.setOvl with
      | none => rfl
      | some f =>
        obtain ⟨pos', eng', hops', hf⟩ := hO f hS
        simp only [hf, (show (fun _ _ => 0 : IMat) = IMat.zero from rfl), (C11_periodic pos' eng' hops' _ G 0).1]
    simp only [statesKq, statesSpec, eigens, this]
  have hmap : (qs.map L.grid2frac).mapM (fun q => statesSpec L.D L.numKpt (fun i => L.kFrac i + q) 2) =
      qs.mapM (statesKq L) := by
    rw [List.mapM_map]
    exact mapM_except_congr (fun q _ => hst q)
  have hspec : arbSpec L (frac2cart B (qs.map L.grid2frac) 0) = regSpec L qs := by
    simp only [arbSpec, regSpec, hqc, hqf, hmap, bind, Except.bind]
  rw [arbitrary_run L w buf fortran _ hd hn r hr, regular_run L w buf' fortran' qs hd hn r hr, hspec]
  simp [frac2cart]

/-- The hypotheses can be met: a chain with one orbital and hopping to the next cell. -/
example : ∃ (L : Lind) (pos : ℤ → Vec3 ℝ) (eng : List ℝ) (hops : List (Cell × Pair × ℂ)), L.lat.det ≠ 0 ∧ 2 ≤ L.numKpt ∧
    hops ≠ [] ∧ ∀ k h, L.D.setHam k 2 h = .ok (setHam pos eng hops 2 k h) :=
  ⟨{ twoK with D := { kxDiag with setHam := fun k c h => .ok (setHam (fun _ => 0) [0] [((1, 0, 0), (0, 0), 1)] c k h) } },
    _, _, _, by simp [twoK], by show 2 ≤ (buildKmeshGrid (2, 1, 1)).length; decide, by simp, fun k h => rfl⟩

/-! ## C76: backends -/

/-- C76: the choice of the backend does not change the result (array, exception) of either function. -/
theorem C76_dyn_pol (L : Lind) (w : World) (buf : ℕ → Buf) :
    (∀ qs, L.dynPolRegular w buf true qs = L.dynPolRegular w buf false qs) ∧
    (∀ qs, L.dynPolArbitrary w buf true qs = L.dynPolArbitrary w buf false qs) := by
  constructor
  · intro qs
    simp only [Lind.dynPolRegular, regStep_backend]
  · intro qs
    simp only [Lind.dynPolArbitrary, arbStep_backend]

end Verif.Props

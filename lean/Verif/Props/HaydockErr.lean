import Verif.Proof.HaydockErr
import Verif.Proof.HaydockLocal
import Verif.Props.Kernel
import Verif.Props.Evolution

/-! # Convergence of the recursion LDOS with depth: C128 -/

namespace Verif.Tbpm

open Matrix

variable {n n' : ℕ}

private theorem smul_herm {A : Matrix (Fin n) (Fin n) ℂ} (hA : A.IsHermitian) (r : ℝ) : ((r : ℂ) • A).IsHermitian := by
  unfold Matrix.IsHermitian
  rw [Matrix.conjTranspose_smul, hA.eq]
  congr 1
  exact Complex.conj_ofReal r

private theorem smul_eig {A : Matrix (Fin n) (Fin n) ℂ} (hs : UnitSpectrum A) (r : ℝ) (hr : 0 < r)
    (hA : ((r : ℂ) • A).IsHermitian) (i : Fin n) : |hA.eigenvalues i| ≤ r := by
  have hr' : (r : ℂ) ≠ 0 := by exact_mod_cast hr.ne'
  have h := hs ((r : ℂ)⁻¹ * (hA.eigenvalues i : ℂ)) (hA.eigenvectorBasis i) ?_ ?_
  · rw [norm_mul, norm_inv, Complex.norm_real, Complex.norm_real, Real.norm_eq_abs, Real.norm_eq_abs, abs_of_pos hr,
      inv_mul_le_iff₀ hr, mul_one] at h
    exact h
  · intro h0
    have h1 := hA.eigenvectorBasis.orthonormal.1 i
    have h2 : hA.eigenvectorBasis i = 0 := by
      ext j; exact congrFun h0 j
    rw [h2, norm_zero] at h1
    exact zero_ne_one h1
  · have h1 := hA.mulVec_eigenvectorBasis i
    rw [Matrix.smul_mulVec] at h1
    have h2 := congrArg (fun v : CVec n => (r : ℂ)⁻¹ • v) h1
    simp only [smul_smul, inv_mul_cancel₀ hr', one_smul] at h2
    rw [h2]
    funext j
    simp [mul_assoc]

theorem haydockBound_nonneg {r delta : ℝ} (hr : 0 < r) (hdelta : 0 < delta) (depth : ℕ) : 0 ≤ haydockBound r delta depth := by
  unfold haydockBound
  have h1 : 0 ≤ Real.arsinh (delta / r) := Real.arsinh_nonneg_iff.2 (div_pos hdelta hr).le
  have h2 : 0 ≤ Real.sinh (depth * Real.arsinh (delta / r)) := Real.sinh_nonneg_iff.2 (by positivity)
  positivity

/-- C128: the continued fraction after `depth` levels of the recursion, for any normalised state and at any energy, differs from the
diagonal element of the Green's function by a bound which decreases exponentially with the depth and does not depend on the size of the
sample, the state or the energy. -/
theorem C128_error {sch : List ℕ → ℕ → List (Fin n)} {m : FCsr} (hm : Ready sch m) (key : List ℕ) (r : ℝ) (hr : 0 < r) (n1 : CVec n)
    (h1 : innerProd n1 n1 = 1) (depth : ℕ) (hd : 1 ≤ depth)
    (hb : ∀ i, i + 1 < depth → (haydock (sch key) m r n1 depth).coefb i ≠ 0) (energy delta : ℝ) (hdelta : 0 < delta) :
    ‖greenFunction energy delta (haydock (sch key) m r n1 depth).coefa (haydock (sch key) m r n1 depth).coefb depth -
      innerProd n1 (((⟨energy, delta⟩ : ℂ) • (1 : Matrix (Fin n) (Fin n) ℂ) - (r : ℂ) • m.toMatrix n)⁻¹.mulVec n1)‖ ≤
      haydockBound r delta depth := by
  have hA := smul_herm hm.herm r
  have hc := haydock_coef (sch key) (hm.order key) m hm.legal r n1 depth hd
  rw [green_eq, cfrac_congr _ _ (la ((r : ℂ) • m.toMatrix n) n1) _ (lb ((r : ℂ) • m.toMatrix n) n1) depth 0
    (fun i _ hi => hc i (by omega))]
  refine cfrac_error hA h1 ⟨energy, delta⟩ hdelta depth hd (fun i hi => ?_) r hr (smul_eig hm.spectrum r hr hA)
  rw [← (hc i (by omega)).2]
  exact hb i hi

/-- C128: the depth needed for a given accuracy depends on the width of the spectrum and the broadening only: it is the same for every
sample, state, schedule and energy. -/
theorem C128_depth (r : ℝ) (hr : 0 < r) (delta : ℝ) (hdelta : 0 < delta) (eps : ℝ) (heps : 0 < eps) :
    ∃ D, 1 ≤ D ∧ ∀ depth, D ≤ depth → ∀ (n : ℕ) (sch : List ℕ → ℕ → List (Fin n)) (m : FCsr), Ready sch m → ∀ (key : List ℕ) (n1 : CVec n),
      innerProd n1 n1 = 1 → (∀ i, i + 1 < depth → (haydock (sch key) m r n1 depth).coefb i ≠ 0) → ∀ energy : ℝ,
      ‖greenFunction energy delta (haydock (sch key) m r n1 depth).coefa (haydock (sch key) m r n1 depth).coefb depth -
        innerProd n1 (((⟨energy, delta⟩ : ℂ) • (1 : Matrix (Fin n) (Fin n) ℂ) - (r : ℂ) • m.toMatrix n)⁻¹.mulVec n1)‖ ≤ eps := by
  have hq : 0 < Real.arsinh (delta / r) := Real.arsinh_pos_iff.2 (div_pos hdelta hr)
  obtain ⟨D, hD⟩ := exists_nat_ge (r / (delta ^ 2 * eps) / Real.arsinh (delta / r))
  refine ⟨D + 1, by omega, fun depth hdep n sch m hm key n1 h1 hb energy => ?_⟩
  refine (C128_error hm key r hr n1 h1 depth (by omega) hb energy delta hdelta).trans ?_
  have hdep' : (D : ℝ) + 1 ≤ depth := by exact_mod_cast hdep
  have h2 : r / (delta ^ 2 * eps) ≤ depth * Real.arsinh (delta / r) := by
    rw [div_le_iff₀ hq] at hD
    nlinarith
  have h3 : 0 < r / (delta ^ 2 * eps) := by positivity
  have h4 : depth * Real.arsinh (delta / r) ≤ Real.sinh (depth * Real.arsinh (delta / r)) := Real.self_le_sinh_iff.2 (h3.le.trans h2)
  have h5 := h2.trans h4
  have h6 := h3.trans_le h5
  unfold haydockBound
  rw [div_le_iff₀ (by positivity)]
  rw [div_le_iff₀ (by positivity)] at h5
  linarith

private theorem avg_congr (F F' : ℕ → ℕ → ℂ) (G G' : ℕ → ℕ → ℝ) (c : ℂ) (d : ℝ) (i : ℕ) (L : List ℕ)
    (h : ∀ s ∈ L, F s i = F' s i ∧ G s i = G' s i) (ab ab' : (ℕ → ℂ) × (ℕ → ℝ)) (h0 : ab.1 i = ab'.1 i ∧ ab.2 i = ab'.2 i) :
    let r := L.foldl (fun (ab : (ℕ → ℂ) × (ℕ → ℝ)) s => (fun i => ab.1 i + F s i / c, fun i => ab.2 i + G s i / d)) ab
    let r' := L.foldl (fun (ab : (ℕ → ℂ) × (ℕ → ℝ)) s => (fun i => ab.1 i + F' s i / c, fun i => ab.2 i + G' s i / d)) ab'
    r.1 i = r'.1 i ∧ r.2 i = r'.2 i := by
  induction L generalizing ab ab' with
  | nil => exact h0
  | cons s L ih =>
    simp only [List.foldl_cons]
    refine ih (fun t ht => h t (by simp [ht])) _ _ ?_
    obtain ⟨e1, e2⟩ := h s (by simp)
    simp only [e1, e2, h0.1, h0.2, and_self]

private theorem avg_const' (f : ℕ → ℂ) (g : ℕ → ℝ) (ns : ℕ) (hns : 1 ≤ ns) (F : ℕ → ℕ → ℂ) (G : ℕ → ℕ → ℝ) (i : ℕ)
    (h : ∀ s, F s i = f i ∧ G s i = g i) :
    let r := (List.range ns).foldl (fun (ab : (ℕ → ℂ) × (ℕ → ℝ)) s => (fun i => ab.1 i + F s i / ns, fun i => ab.2 i + G s i / ns))
      (fun _ => 0, fun _ => 0)
    r.1 i = f i ∧ r.2 i = g i := by
  have key : ∀ (L : List ℕ) (ab : (ℕ → ℂ) × (ℕ → ℝ)),
      let r := L.foldl (fun (ab : (ℕ → ℂ) × (ℕ → ℝ)) s => (fun i => ab.1 i + F s i / ns, fun i => ab.2 i + G s i / ns)) ab
      r.1 i = ab.1 i + L.length * (f i / ns) ∧ r.2 i = ab.2 i + L.length * (g i / ns) := by
    intro L
    induction L with
    | nil => intro ab; simp
    | cons s L ih =>
      intro ab
      rw [List.foldl_cons]
      obtain ⟨h1, h2⟩ := ih (fun i => ab.1 i + F s i / ns, fun i => ab.2 i + G s i / ns)
      obtain ⟨h3, h4⟩ := h s
      refine ⟨h1.trans ?_, h2.trans ?_⟩
      · simp only [h3, List.length_cons]
        push_cast
        ring
      · simp only [h4, List.length_cons]
        push_cast
        ring
  have hns' : (ns : ℂ) ≠ 0 := by exact_mod_cast (by omega : ns ≠ 0)
  have hns'' : (ns : ℝ) ≠ 0 := by exact_mod_cast (by omega : ns ≠ 0)
  obtain ⟨h1, h2⟩ := key (List.range ns) (fun _ => 0, fun _ => 0)
  simp only [List.length_range, zero_add, mul_div_cancel₀ _ hns', mul_div_cancel₀ _ hns''] at h1 h2
  exact ⟨h1, h2⟩

/-- C128: the LDOS of a site by the recursion method, for any number of samples, against the diagonal element of the Green's function. -/
theorem C128_ldos {sch : List ℕ → ℕ → List (Fin n)} {m : FCsr} (hm : Ready sch m) (key : ℕ → List ℕ) (r : ℝ) (hr : 0 < r)
    (site : Fin n) (rnd : ℕ → ℕ → ℂ) (delta eRange : ℝ) (hdelta : 0 < delta) (depth nt ns : ℕ) (hd : 1 ≤ depth) (hns : 1 ≤ ns)
    (hrnd : ∀ s, ‖rnd s 0‖ = 1) (energy ldos : ℤ → ℝ)
    (h : ldosHaydock (fun s => sch (key s)) m r [site] rnd delta eRange depth nt ns = some (energy, ldos)) (i : ℤ) :
    |ldos i - -(((⟨energy i, delta⟩ : ℂ) • (1 : Matrix (Fin n) (Fin n) ℂ) - (r : ℂ) • m.toMatrix n)⁻¹ site site).im / Real.pi| ≤
      haydockBound r delta depth / Real.pi := by
  have hA := smul_herm hm.herm r
  have heig := smul_eig hm.spectrum r hr hA
  generalize hAd : (r : ℂ) • m.toMatrix n = A at *
  have hst : ∀ s, siteState [site] (rnd s) = rnd s 0 • (Pi.single site 1 : CVec n) := by
    intro s
    funext j
    by_cases hj : j = site
    · subst hj
      simp [siteState]
    · simp [siteState, hj]
  set e0 : CVec n := Pi.single site 1 with he0
  have hcoef : ∀ s j, j < depth → (haydock (sch (key s)) m r (siteState [site] (rnd s)) depth).coefa j = la A e0 j ∧
      (haydock (sch (key s)) m r (siteState [site] (rnd s)) depth).coefb j = lb A e0 j := by
    intro s j hj
    have h1 := haydock_coef (sch (key s)) (hm.order (key s)) m hm.legal r (siteState [site] (rnd s)) depth hd j hj
    rw [hAd, hst s] at h1
    have h2 := chain_phase A e0 (rnd s 0) (hrnd s) j
    rw [hst s]
    exact ⟨h1.1.trans h2.1, h1.2.trans h2.2⟩
  unfold ldosHaydock at h
  simp only at h
  split at h
  · exact absurd h (by simp)
  · rename_i hnb
    simp only [Option.some.injEq, Prod.mk.injEq] at h
    obtain ⟨he, rfl⟩ := h
    have hnorm : innerProd e0 e0 = 1 := by
      rw [he0]
      simp [innerProd, Pi.single_apply]
    have hdiag : innerProd e0 ((((⟨energy i, delta⟩ : ℂ) • (1 : Matrix (Fin n) (Fin n) ℂ) - A)⁻¹).mulVec e0) =
        (((⟨energy i, delta⟩ : ℂ) • (1 : Matrix (Fin n) (Fin n) ℂ) - A)⁻¹) site site := by
      rw [he0]
      simp [innerProd, Pi.single_apply]
    have herr := cfrac_error hA hnorm ⟨energy i, delta⟩ hdelta depth hd (fun j hj => by
      rw [← (hcoef 0 j (by omega)).2]
      intro h0
      exact hnb ⟨0, by omega, j, hj, h0⟩) r hr heig
    rw [hdiag] at herr
    have hei : energy i = 0.5 * i * eRange / nt := by rw [← he]
    have hg : ∀ a b, (∀ j < depth, a j = la A e0 j ∧ b j = lb A e0 j) →
        |-1 / Real.pi * (greenFunction (energy i) delta a b depth).im -
          -((((⟨energy i, delta⟩ : ℂ) • (1 : Matrix (Fin n) (Fin n) ℂ) - A)⁻¹) site site).im / Real.pi| ≤
          haydockBound r delta depth / Real.pi := by
      intro a b hab
      rw [green_eq, cfrac_congr _ _ (la A e0) _ (lb A e0) depth 0 (fun j _ hj => hab j (by omega))]
      have hpi := Real.pi_pos
      have h3 := (Complex.abs_im_le_norm _).trans herr
      rw [Complex.sub_im] at h3
      rw [show ∀ x y : ℝ, -1 / Real.pi * x - -y / Real.pi = -((x - y) / Real.pi) from fun x y => by ring, abs_neg, abs_div,
        abs_of_pos hpi]
      exact div_le_div_of_nonneg_right h3 hpi.le
    beta_reduce
    rw [← hei]
    exact hg _ _ fun j hj => avg_const' (la A e0) (lb A e0) ns hns
      (fun s => (haydock (sch (key s)) m r (siteState [site] (rnd s)) depth).coefa)
      (fun s => (haydock (sch (key s)) m r (siteState [site] (rnd s)) depth).coefb) j (fun s => hcoef s j hj)

/-- C128: the result depends on the surroundings of the sites only: two samples, of any sizes, which agree within `depth` hoppings of the
sites have the same recursion LDOS, for all schedules of the loops. -/
theorem C128_local {m m' : FCsr} (hm : m.Legal n) (hm' : m'.Legal n') (r : ℝ) {f : Fin n → Fin n'} {S : ℕ → Set (Fin n)}
    {sites : List (Fin n)} {depth : ℕ} (hd : 1 ≤ depth) (h : SameSurroundings (m.toMatrix n) (m'.toMatrix n') f S sites depth)
    (sch : ℕ → ℕ → List (Fin n)) (hs : ∀ s k, IsOrder (sch s k)) (sch' : ℕ → ℕ → List (Fin n')) (hs' : ∀ s k, IsOrder (sch' s k))
    (rnd : ℕ → ℕ → ℂ) (delta eRange : ℝ) (nt ns : ℕ) :
    ldosHaydock sch' m' r (sites.map f) rnd delta eRange depth nt ns = ldosHaydock sch m r sites rnd delta eRange depth nt ns := by
  have hr : SameSurroundings ((r : ℂ) • m.toMatrix n) ((r : ℂ) • m'.toMatrix n') f S sites depth :=
    { inj := h.inj, mono := h.mono, start := h.start,
      near := fun k hk j hj i hne => h.near k hk j hj i fun e => hne (by rw [Matrix.smul_apply, e, smul_zero]),
      same := fun k hk j hj i => by rw [Matrix.smul_apply, Matrix.smul_apply, h.same k hk j hj i],
      outside := fun k hk j hj i hi => by rw [Matrix.smul_apply, h.outside k hk j hj i hi, smul_zero] }
  have hcoef : ∀ s i, i < depth →
      (haydock (sch' s) m' r (siteState (sites.map f) (rnd s)) depth).coefa i = (haydock (sch s) m r (siteState sites (rnd s)) depth).coefa i ∧
      (haydock (sch' s) m' r (siteState (sites.map f) (rnd s)) depth).coefb i =
        (haydock (sch s) m r (siteState sites (rnd s)) depth).coefb i := by
    intro s i hi
    have h1 := haydock_coef (sch s) (hs s) m hm r (siteState sites (rnd s)) depth hd i hi
    have h2 := haydock_coef (sch' s) (hs' s) m' hm' r (siteState (sites.map f) (rnd s)) depth hd i hi
    rw [h1.1, h1.2, h2.1, h2.2, siteState_extend f h.inj]
    exact coef_extend hr _ (fun j hj => siteState_support _ _ j fun hj' => hj (h.start j hj')) i hi
  unfold ldosHaydock
  simp only
  have hif : (∃ s < ns, ∃ i, i + 1 < depth ∧ (haydock (sch' s) m' r (siteState (sites.map f) (rnd s)) depth).coefb i = 0) ↔
      ∃ s < ns, ∃ i, i + 1 < depth ∧ (haydock (sch s) m r (siteState sites (rnd s)) depth).coefb i = 0 := by
    refine exists_congr fun s => and_congr_right fun _ => exists_congr fun i => and_congr_right fun hi => ?_
    rw [(hcoef s i (by omega)).2]
  by_cases hb : ∃ s < ns, ∃ i, i + 1 < depth ∧ (haydock (sch s) m r (siteState sites (rnd s)) depth).coefb i = 0
  · rw [if_pos hb, if_pos (hif.2 hb)]
  · rw [if_neg hb, if_neg fun h => hb (hif.1 h)]
    congr 2
    funext i
    congr 2
    rw [green_eq, green_eq]
    refine cfrac_congr _ _ _ _ _ depth 0 fun j _ hj => ?_
    exact avg_congr (fun s => (haydock (sch' s) m' r (siteState (sites.map f) (rnd s)) depth).coefa)
      (fun s => (haydock (sch s) m r (siteState sites (rnd s)) depth).coefa)
      (fun s => (haydock (sch' s) m' r (siteState (sites.map f) (rnd s)) depth).coefb)
      (fun s => (haydock (sch s) m r (siteState sites (rnd s)) depth).coefb) _ _ j _ (fun s _ => hcoef s j (by omega)) _ _ ⟨rfl, rfl⟩

/-- C128: hence far-away changes of a sample barely matter: the exact LDOS of a site, at any energy, is the same in two samples which
agree within `depth` hoppings, up to twice the bound. -/
theorem C128_nearsighted {sch : List ℕ → ℕ → List (Fin n)} {m : FCsr} (hm : Ready sch m) {sch' : List ℕ → ℕ → List (Fin n')} {m' : FCsr}
    (hm' : Ready sch' m') (r : ℝ) (hr : 0 < r) {f : Fin n → Fin n'} {S : ℕ → Set (Fin n)} {site : Fin n} {depth : ℕ} (hd : 1 ≤ depth)
    (h : SameSurroundings (m.toMatrix n) (m'.toMatrix n') f S [site] depth) (delta : ℝ) (hdelta : 0 < delta)
    (eRange : ℝ) (nt : ℕ) (energy ldos : ℤ → ℝ)
    (hl : ldosHaydock (fun _ => sch []) m r [site] (fun _ _ => 1) delta eRange depth nt 1 = some (energy, ldos)) (i : ℤ) :
    |(((⟨energy i, delta⟩ : ℂ) • (1 : Matrix (Fin n) (Fin n) ℂ) - (r : ℂ) • m.toMatrix n)⁻¹ site site).im / Real.pi -
      (((⟨energy i, delta⟩ : ℂ) • (1 : Matrix (Fin n') (Fin n') ℂ) - (r : ℂ) • m'.toMatrix n')⁻¹ (f site) (f site)).im / Real.pi| ≤
      2 * haydockBound r delta depth / Real.pi := by
  have h1 := C128_ldos hm (fun _ => []) r hr site (fun _ _ => 1) delta eRange hdelta depth nt 1 hd le_rfl (by simp) energy ldos hl i
  have hloc := C128_local hm.legal hm'.legal r hd h (fun _ => sch []) (fun _ => hm.order []) (fun _ => sch' []) (fun _ => hm'.order [])
    (fun _ _ => 1) delta eRange nt 1
  rw [hl, List.map_singleton] at hloc
  have h2 := C128_ldos hm' (fun _ => []) r hr (f site) (fun _ _ => 1) delta eRange hdelta depth nt 1 hd le_rfl (by simp) energy ldos hloc i
  rw [abs_le] at h1 h2 ⊢
  rw [neg_div] at h1 h2
  constructor
  · have := h1.1; have := h2.2
    rw [mul_div_assoc]
    linarith
  · have := h1.2; have := h2.1
    rw [mul_div_assoc]
    linarith

/-! ## Examples -/

/-- CSR arrays of a chain of `n` orbitals with hoppings 1. -/
def pathCsr (n : ℕ) : FCsr :=
  ⟨fun k => if k = n then 2 * n - 2 else 2 * k - 1, fun j => if j % 2 = 1 then j / 2 else j / 2 + 1, fun _ => 1⟩

theorem pathCsr_legal (n : ℕ) (hn : 2 ≤ n) : (pathCsr n).Legal n := by
  intro i hi j h1 h2
  simp only [pathCsr] at *
  split_ifs at * <;> omega

theorem path3 : (pathCsr 3).toMatrix 3 = !![0, 1, 0; 1, 0, 1; 0, 1, 0] := by
  ext a b
  fin_cases a <;> fin_cases b <;> simp [FCsr.toMatrix, pathCsr, List.range']

theorem path4 : (pathCsr 4).toMatrix 4 = !![0, 1, 0, 0; 1, 0, 1, 0; 0, 1, 0, 1; 0, 0, 1, 0] := by
  ext a b
  fin_cases a <;> fin_cases b <;> simp [FCsr.toMatrix, pathCsr, List.range']

/-- The first orbital of a chain of three orbitals has the same surroundings as the first one of a chain of four, for two levels. -/
theorem path_same : SameSurroundings ((pathCsr 3).toMatrix 3) ((pathCsr 4).toMatrix 4) (Fin.castLE (by norm_num)) (fun k => {i | (i : ℕ) ≤ k}) [0] 2 where
  inj := Fin.castLE_injective _
  mono := fun k i hi => Nat.le_succ_of_le hi
  start := by simp
  near := by
    intro k hk j hj i
    rw [path3]
    simp only [Set.mem_setOf_eq] at *
    interval_cases k <;> fin_cases j <;> fin_cases i <;> simp_all
  same := by
    intro k hk j hj i
    rw [path3, path4]
    simp only [Set.mem_setOf_eq] at *
    interval_cases k <;> fin_cases j <;> fin_cases i <;> simp_all <;> rfl
  outside := by
    intro k hk j hj i hi
    rw [path4]
    simp only [Set.mem_setOf_eq] at *
    have h3 : i = 3 := by
      by_contra h
      exact hi ⟨⟨i, by omega⟩, rfl⟩
    subst h3
    interval_cases k <;> fin_cases j <;> simp_all <;> rfl

/-- Concrete case of C128: the LDOS of the first orbital of both chains at two levels. -/
example (delta : ℝ) : ldosHaydock (fun _ _ => List.finRange 4) (pathCsr 4) 2 [0] (fun _ _ => 1) delta 4 2 8 1 =
    ldosHaydock (fun _ _ => List.finRange 3) (pathCsr 3) 2 [0] (fun _ _ => 1) delta 4 2 8 1 :=
  C128_local (pathCsr_legal 3 (by norm_num)) (pathCsr_legal 4 (by norm_num)) 2 (by norm_num) path_same _
    (fun _ _ => List.Perm.refl _) _ (fun _ _ => List.Perm.refl _) _ _ _ _ _

/-- Concrete case of C128: one level of the recursion for the first orbital of the dimer, at the broadening 1 and a width 2 of the spectrum. -/
example (energy : ℝ) :
    ‖greenFunction energy 1 (haydock flip dimer 1 ![1, 0] 1).coefa (haydock flip dimer 1 ![1, 0] 1).coefb 1 -
      innerProd ![1, 0] (((⟨energy, 1⟩ : ℂ) • (1 : Matrix (Fin 2) (Fin 2) ℂ) - ((1 : ℝ) : ℂ) • dimer.toMatrix 2)⁻¹.mulVec ![1, 0])‖ ≤ 1 := by
  refine (C128_error dimer_ready [] 1 one_pos ![1, 0] (by simp [innerProd]) 1 le_rfl (by simp) energy 1 one_pos).trans (le_of_eq ?_)
  unfold haydockBound
  simp [Real.sinh_arsinh]

end Verif.Tbpm

import Verif.Spec.TimeReversal
import Verif.Proof.EnergyZero
import Verif.Proof.CellChoice
import Verif.Props.CellChoiceAC

/-! # States at opposite wave vectors -/

namespace Verif.Props

open PrimCell

section Mesh

/-- The point of the mesh opposite to `g`. -/
def oppGrid (m : ℕ × ℕ × ℕ) (g : Grid) : Grid := (-g.1 % (m.1 : ℤ), -g.2.1 % (m.2.1 : ℤ), -g.2.2 % (m.2.2 : ℤ))

theorem oppGrid_mem {m : ℕ × ℕ × ℕ} {g : Grid} (h : g ∈ buildKmeshGrid m) : oppGrid m g ∈ buildKmeshGrid m := by
  obtain ⟨⟨h1, h2⟩, ⟨h3, h4⟩, h5, h6⟩ := (kmesh_mem m g).1 h
  refine (kmesh_mem m _).2 ⟨⟨Int.emod_nonneg _ (by omega), Int.emod_lt_of_pos _ (by omega)⟩,
    ⟨Int.emod_nonneg _ (by omega), Int.emod_lt_of_pos _ (by omega)⟩, ⟨Int.emod_nonneg _ (by omega), Int.emod_lt_of_pos _ (by omega)⟩⟩

theorem oppGrid_opp {m : ℕ × ℕ × ℕ} {g : Grid} (h : g ∈ buildKmeshGrid m) : oppGrid m (oppGrid m g) = g := by
  obtain ⟨⟨h1, h2⟩, ⟨h3, h4⟩, h5, h6⟩ := (kmesh_mem m g).1 h
  have key : ∀ x n : ℤ, 0 ≤ x → x < n → -(-x % n) % n = x := by
    intro x n a b
    have : -(-x % n) % n = -(-x) % n := Int.ModEq.neg (Int.mod_modEq (-x) n)
    rw [this, neg_neg, Int.emod_eq_of_lt a b]
  exact Prod.ext (key _ _ h1 h2) (Prod.ext (key _ _ h3 h4) (key _ _ h5 h6))

theorem oppGrid_frac (L : Lind) (hm : 0 < L.mesh.1 ∧ 0 < L.mesh.2.1 ∧ 0 < L.mesh.2.2) (g : Grid) :
    Opposite (L.grid2frac g) (L.grid2frac (oppGrid L.mesh g)) := by
  have key : ∀ (x : ℤ) (n : ℕ), 0 < n → ((-x % (n : ℤ) : ℤ) : ℝ) / n = -((x : ℝ) / n) + ((-(-x / (n : ℤ)) : ℤ) : ℝ) := by
    intro x n hn
    have h1 : (n : ℝ) ≠ 0 := by exact_mod_cast hn.ne'
    have h2 : ((-x % (n : ℤ) : ℤ) : ℝ) = -(x : ℝ) - n * ((-x / (n : ℤ) : ℤ) : ℝ) := by
      rw [Int.emod_def]
      push_cast
      ring
    rw [h2]
    push_cast
    field_simp
    ring
  refine ⟨![-(-g.1 / (L.mesh.1 : ℤ)), -(-g.2.1 / (L.mesh.2.1 : ℤ)), -(-g.2.2 / (L.mesh.2.2 : ℤ))], fun x => ?_⟩
  fin_cases x
  · exact key _ _ hm.1
  · exact key _ _ hm.2.1
  · exact key _ _ hm.2.2

/-- Sums over the mesh do not change when every point is replaced by the opposite one. -/
theorem mesh_opp {A : Type*} [AddCommMonoid A] (L : Lind) (hm : 0 < L.mesh.1 ∧ 0 < L.mesh.2.1 ∧ 0 < L.mesh.2.2) (f f' : ℕ → A)
    (h : ∀ i < L.numKpt, ∀ j < L.numKpt, Opposite (L.kFrac i) (L.kFrac j) → f j = f' i) :
    ∑ i ∈ Finset.range L.numKpt, f i = ∑ i ∈ Finset.range L.numKpt, f' i := by
  have ix : ∀ y ∈ buildKmeshGrid L.mesh, (buildKmeshGrid L.mesh).idxOf y < L.numKpt ∧ L.kFrac ((buildKmeshGrid L.mesh).idxOf y) = L.grid2frac y := by
    intro y hy
    have hi : (buildKmeshGrid L.mesh).idxOf y < (buildKmeshGrid L.mesh).length := List.idxOf_lt_length_iff.2 hy
    refine ⟨hi, ?_⟩
    rw [Lind.kFrac, List.getD_eq_getElem?_getD, List.getElem?_eq_getElem hi, Option.getD_some, List.getElem_idxOf]
  have e1 : ∀ f : ℕ → A, ∑ i ∈ Finset.range L.numKpt, f i = ((buildKmeshGrid L.mesh).map fun x => f ((buildKmeshGrid L.mesh).idxOf x)).sum := by
    intro f
    rw [← list_getD_sum (buildKmeshGrid L.mesh) (fun x => f ((buildKmeshGrid L.mesh).idxOf x)) (0, 0, 0)]
    refine Finset.sum_congr rfl fun i hi => ?_
    have hi : i < (buildKmeshGrid L.mesh).length := Finset.mem_range.1 hi
    rw [List.getD_eq_getElem?_getD, List.getElem?_eq_getElem hi, Option.getD_some, List.Nodup.idxOf_getElem (kmesh_nodup _)]
  have hp : ((buildKmeshGrid L.mesh).map (oppGrid L.mesh)).Perm (buildKmeshGrid L.mesh) := by
    have hnd : ((buildKmeshGrid L.mesh).map (oppGrid L.mesh)).Nodup := by
      refine List.Nodup.map_on (fun x hx y hy hxy => ?_) (kmesh_nodup _)
      rw [← oppGrid_opp hx, hxy, oppGrid_opp hy]
    refine (List.Nodup.subperm hnd fun x hx => ?_).perm_of_length_le (by simp)
    obtain ⟨y, hy, rfl⟩ := List.mem_map.1 hx
    exact oppGrid_mem hy
  rw [e1, e1, ← (hp.map fun x => f ((buildKmeshGrid L.mesh).idxOf x)).sum_eq, List.map_map]
  refine congrArg _ (List.map_congr_left fun x hx => ?_)
  obtain ⟨hi, ei⟩ := ix x hx
  obtain ⟨hj, ej⟩ := ix _ (oppGrid_mem hx)
  exact h _ hi _ hj (by rw [ei, ej]; exact oppGrid_frac L hm x)

end Mesh

section Pairs

variable {n : ℕ}

/-- The states with opposite wave vectors. -/
noncomputable def revStates (θ : ℕ → ℂ) (q : (ℕ → ℝ) × (ℕ → ℕ → ℂ)) : (ℕ → ℝ) × (ℕ → ℕ → ℂ) := (q.1, fun a j => θ a * star (q.2 a j))

theorem rev_pairs {θ : ℕ → ℂ} (hθ : ∀ a, star (θ a) * θ a = 1) {h h' : IMat} (hh : ∀ a < n, ∀ b < n, h' a b = θ a * star (h a b) * star (θ b))
    {q : (ℕ → ℝ) × (ℕ → ℕ → ℂ)} (hq : Eigenpairs n n h q) : Eigenpairs n n h' (revStates θ q) := by
  refine ⟨fun j hj o ho => ?_, fun j hj j' hj' => ?_⟩
  · have h1 := congrArg star (hq.eigen j hj o ho)
    rw [star_sum, star_mul', show star ((q.1 j : ℝ) : ℂ) = (q.1 j : ℂ) from Complex.conj_ofReal _] at h1
    simp only [revStates]
    rw [show (q.1 j : ℂ) * (θ o * star (q.2 o j)) = θ o * ((q.1 j : ℂ) * star (q.2 o j)) by ring, ← h1, Finset.mul_sum]
    refine Finset.sum_congr rfl fun m hm => ?_
    rw [hh o ho m (Finset.mem_range.1 hm), star_mul']
    linear_combination (θ o * star (h o m) * star (q.2 m j)) * hθ m
  · have h1 := congrArg star (hq.orthonormal j hj j' hj')
    rw [star_sum] at h1
    simp only [revStates]
    rw [show (if j = j' then (1 : ℂ) else 0) = star (if j = j' then (1 : ℂ) else 0) by split_ifs <;> simp, ← h1]
    refine Finset.sum_congr rfl fun m _ => ?_
    simp only [star_mul', star_star]
    linear_combination (q.2 m j * star (q.2 m j')) * hθ m

theorem rev_bracket {θ : ℕ → ℂ} (hθ : ∀ a, star (θ a) * θ a = 1) {A A' : ℕ → ℕ → ℂ} {e : ℂ}
    (hA : ∀ a < n, ∀ b < n, A' a b = e * (θ a * star (A a b) * star (θ b))) (u q : (ℕ → ℝ) × (ℕ → ℕ → ℂ)) (l j : ℕ) :
    bracket n A' (revStates θ u) (revStates θ q) l j = e * star (bracket n A u q l j) := by
  unfold bracket revStates
  rw [star_sum, Finset.mul_sum]
  refine Finset.sum_congr rfl fun a ha => ?_
  rw [star_sum, Finset.mul_sum]
  refine Finset.sum_congr rfl fun b hb => ?_
  rw [hA a (Finset.mem_range.1 ha) b (Finset.mem_range.1 hb)]
  simp only [star_mul', star_star]
  linear_combination (e * u.2 a l * star (A a b) * star (q.2 b j)) * (star (θ b) * θ b) * hθ a + (e * u.2 a l * star (A a b) * star (q.2 b j)) * hθ b

theorem bracket_star {A B : ℕ → ℕ → ℂ} (hA : ∀ a b, star (A a b) = B b a) (u q : (ℕ → ℝ) × (ℕ → ℕ → ℂ)) (l j : ℕ) :
    star (bracket n A u q l j) = bracket n B q u j l := by
  unfold bracket
  rw [star_sum]
  conv_lhs => enter [2, a]; rw [star_sum]
  rw [Finset.sum_comm]
  refine Finset.sum_congr rfl fun a _ => Finset.sum_congr rfl fun b _ => ?_
  rw [star_mul', star_mul', star_star, hA]
  ring

end Pairs

section Cell

variable {Λ : Type}

/-- The phases of the states at opposite wave vectors in the first convention. -/
noncomputable def revPhase (s : PrimCell ℝ ℂ Λ) (conv : ℤ) (z : Fin 3 → ℤ) (a : ℕ) : ℂ :=
  if conv = 1 then eiPhase (-(2 * Real.pi * ∑ x, (z x : ℝ) * orbFrac s a x)) else 1

theorem revPhase_unit (s : PrimCell ℝ ℂ Λ) (conv : ℤ) (z : Fin 3 → ℤ) (a : ℕ) : star (revPhase s conv z a) * revPhase s conv z a = 1 := by
  unfold revPhase
  split_ifs
  · rw [mul_comm]; exact eiPhase_mul_star _
  · simp

/-- Real hoppings: the Hamiltonians at opposite wave vectors are complex conjugate. -/
theorem ham_rev {s : PrimCell ℝ ℂ Λ} (hw : WF s) (hf : ArraysFresh s) (hs : RealHops s) {k k' : Vec3 ℝ} {z : Fin 3 → ℤ} (hk : ∀ x, k' x = -k x + z x)
    {conv : ℤ} {h h' : IMat} (hok : setHamDense s k conv = .ok h) (hok' : setHamDense s k' conv = .ok h') {a b : ℕ} (ha : a < s.numOrb) (hb : b < s.numOrb) :
    h' a b = revPhase s conv z a * star (h a b) * star (revPhase s conv z b) := by
  obtain ⟨oa, ha'⟩ : ∃ o, s.orbs[a]? = some o := ⟨_, List.getElem?_eq_getElem ha⟩
  obtain ⟨ob, hb'⟩ : ∃ o, s.orbs[b]? = some o := ⟨_, List.getElem?_eq_getElem hb⟩
  have hS : ∀ R, s.hops.get R a b ≠ none → R ∈ ((C07_neighbours_finite s.hops (a : ℕ)).image Prod.fst).toFinset :=
    fun R hR => (Set.Finite.mem_toFinset _).2 ⟨(R, (b : ℕ)), hR, rfl⟩
  rw [ham_entry hw hf k conv h hok a b _ _ ha' hb' _ hS, ham_entry hw hf k' conv h' hok' a b _ _ ha' hb' _ hS, star_add, star_sum, mul_add, add_mul,
    Finset.mul_sum, Finset.sum_mul]
  congr 1
  · by_cases hab : a = b
    · subst hab
      simp only [if_true]
      rw [show star ((oa.energy : ℝ) : ℂ) = (oa.energy : ℂ) from Complex.conj_ofReal _]
      linear_combination -((oa.energy : ℝ) : ℂ) * revPhase_unit s conv z a
    · simp [hab]
  · refine Finset.sum_congr rfl fun R _ => ?_
    have ht : star ((s.hops.get R a b).getD 0) = (s.hops.get R a b).getD 0 := by
      cases hg : s.hops.get R a b with
      | none => simp
      | some t => exact hs R a b t hg
    have pa : orbFrac s a = oa.position := by simp [orbFrac, ha']
    have pb : orbFrac s b = ob.position := by simp [orbFrac, hb']
    rw [star_mul', ht, ← eiPhase_neg]
    have hz : ∃ N : ℤ, ∑ x, (z x : ℝ) * (cellAt R x : ℝ) = N := ⟨∑ x, z x * cellAt R x, by push_cast; rfl⟩
    obtain ⟨N, hN⟩ := hz
    unfold revPhase
    by_cases hc : conv = 1
    · simp only [hc, if_true, pa, pb]
      rw [← eiPhase_neg, show ∀ A B C D : ℂ, A * (B * C) * D = B * (A * C * D) by intros; ring, ← eiPhase_add, ← eiPhase_add]
      congr 1
      rw [← mul_one (eiPhase (_ + _)), ← eiPhase_int N, ← eiPhase_add]
      congr 1
      rw [← hN]
      simp only [Fin.sum_univ_three, hk]
      ring
    · simp only [hc, if_false, add_zero, one_mul, star_one, mul_one]
      congr 1
      rw [← mul_one (eiPhase (-_)), ← eiPhase_int N, ← eiPhase_add]
      congr 1
      rw [← hN]
      simp only [Fin.sum_univ_three, hk]
      ring

/-- Eigenvectors at opposite wave vectors. -/
theorem eigen_rev {D : Diag} {s : PrimCell ℝ ℂ Λ} (hw : WF s) (hf : ArraysFresh s) (hs : RealHops s) (hD : SolvesCell D s) (hz : ZheevSpec D)
    {k k' : Vec3 ℝ} {z : Fin 3 → ℤ} (hk : ∀ x, k' x = -k x + z x) {conv : ℤ} {q q' : (ℕ → ℝ) × (ℕ → ℕ → ℂ)} (hq : eigen D k conv = .ok q)
    (hq' : eigen D k' conv = .ok q') : ∃ m, Eigenpairs D.nb D.nb m q' ∧ Eigenpairs D.nb D.nb m (revStates (revPhase s conv z) q) := by
  obtain ⟨m, hm, hzm⟩ := eigen_ok D hD.plain _ _ q hq
  obtain ⟨m', hm', hzm'⟩ := eigen_ok D hD.plain _ _ q' hq'
  refine ⟨m', hz m' q' hzm', rev_pairs (revPhase_unit s conv z) (fun a ha b hb => ?_) (hz m q hzm)⟩
  rw [hD.nb] at ha hb
  exact ham_rev hw hf hs hk (hD.ham _ _ _ hm) (hD.ham _ _ _ hm') ha hb

theorem vel_deriv (A : Mat3 ℝ) (pos : ℤ → Vec3 ℝ) (eng : List ℝ) (hops : List (Cell × Pair × ℂ)) (K : Vec3 ℝ) (c : Fin 3) (a b : ℤ) :
    HasDerivAt (fun t : ℝ => hamCart A pos eng hops (K + t • (Pi.single c 1 : Vec3 ℝ)) a b) (velocity A pos eng hops K c a b) 0 :=
  (vel_hasDeriv A pos eng hops K c a b).differentiableAt.hasDerivAt

/-- Velocities at opposite wave vectors are opposite. -/
theorem vel_rev {s : PrimCell ℝ ℂ Λ} (hw : WF s) (hf : ArraysFresh s) (hs : RealHops s) (h1 : s.numOrb ≠ 0) (h2 : s.hops.numHop ≠ 0) {A : Mat3 ℝ}
    {K K' : Vec3 ℝ} {z : Fin 3 → ℤ} (hK : ∀ x, dotProduct (A x) K' / (2 * Real.pi) = -(dotProduct (A x) K / (2 * Real.pi)) + z x) (c : Fin 3)
    {a b : ℕ} (ha : a < s.numOrb) (hb : b < s.numOrb) :
    velocity A s.posAt s.arrEng s.hopRows K' c a b =
      -1 * (revPhase s 1 z a * star (velocity A s.posAt s.arrEng s.hopRows K c a b) * star (revPhase s 1 z b)) := by
  have hfun : (fun t : ℝ => hamCart A s.posAt s.arrEng s.hopRows (K' + t • (Pi.single c 1 : Vec3 ℝ)) a b) =
      fun t : ℝ => revPhase s 1 z a * star (hamCart A s.posAt s.arrEng s.hopRows (K + (-t) • (Pi.single c 1 : Vec3 ℝ)) a b) * star (revPhase s 1 z b) := by
    funext t
    unfold hamCart
    refine ham_rev hw hf hs (fun x => ?_) (dense_ok h1 h2 _) (dense_ok h1 h2 _) ha hb
    rw [dotProduct_add, dotProduct_add, dotProduct_smul, dotProduct_smul, add_div, hK x]
    simp only [smul_eq_mul]
    ring
  have hR := vel_deriv A s.posAt s.arrEng s.hopRows K c a b
  have hR0 : HasDerivAt (fun t : ℝ => hamCart A s.posAt s.arrEng s.hopRows (K + t • (Pi.single c 1 : Vec3 ℝ)) a b)
      (velocity A s.posAt s.arrEng s.hopRows K c a b) (-(0 : ℝ)) := by rw [neg_zero]; exact hR
  have hR1 := HasDerivAt.scomp (0 : ℝ) hR0 (hasDerivAt_neg (0 : ℝ))
  have hR2 := ((hR1.star).const_mul (revPhase s 1 z a)).mul_const (star (revPhase s 1 z b))
  have hL := vel_deriv A s.posAt s.arrEng s.hopRows K' c a b
  rw [hfun] at hL
  refine (hL.unique hR2).trans ?_
  simp

theorem vel_herm (A : Mat3 ℝ) (pos : ℤ → Vec3 ℝ) (eng : List ℝ) (hops : List (Cell × Pair × ℂ)) (K : Vec3 ℝ) (c : Fin 3) (a b : ℕ) :
    star (velocity A pos eng hops K c a b) = velocity A pos eng hops K c b a := by
  have h1 := (vel_deriv A pos eng hops K c a b).star
  have h2 := vel_deriv A pos eng hops K c b a
  refine h1.unique ?_
  have hfun : (fun t : ℝ => hamCart A pos eng hops (K + t • (Pi.single c 1 : Vec3 ℝ)) b a) =
      fun t : ℝ => star (hamCart A pos eng hops (K + t • (Pi.single c 1 : Vec3 ℝ)) a b) := by
    funext t
    have := C09_hermitian pos eng hops 1 (fun i => dotProduct (A i) (K + t • (Pi.single c 1 : Vec3 ℝ)) / (2 * Real.pi)) (a + b + 1)
    have h3 := congrFun (congrFun this ⟨b, by omega⟩) ⟨a, by omega⟩
    simp only [Matrix.conjTranspose_apply, toMatrix, Matrix.of_apply] at h3
    exact h3.symm
  rw [hfun] at h2
  exact h2

end Cell

end Verif.Props

import Verif.Model.LindhardEps
import Verif.Props.LindhardAC
import Mathlib.Tactic.Positivity

/-! # Signs and symmetries of the response functions -/

namespace Verif
open Props

/-! ## Occupation -/

theorem occ_anti (β μ : ℝ) (hβ : 0 ≤ β) {a b : ℝ} (h : a ≤ b) :
    1 / (1 + Real.exp (β * (b - μ))) ≤ 1 / (1 + Real.exp (β * (a - μ))) := by
  refine one_div_le_one_div_of_le (by positivity) ?_
  have : Real.exp (β * (a - μ)) ≤ Real.exp (β * (b - μ)) :=
    Real.exp_le_exp.2 (mul_le_mul_of_nonneg_left (by linarith) hβ)
  linarith

theorem occ_prod (β μ : ℝ) (hβ : 0 ≤ β) (a b : ℝ) :
    (1 / (1 + Real.exp (β * (a - μ))) - 1 / (1 + Real.exp (β * (b - μ)))) * (a - b) ≤ 0 := by
  rcases le_total a b with h | h
  · exact mul_nonpos_of_nonneg_of_nonpos (by have := occ_anti β μ hβ h; linarith) (by linarith)
  · exact mul_nonpos_of_nonpos_of_nonneg (by have := occ_anti β μ hβ h; linarith) (by linarith)

theorem occ_slope (β μ : ℝ) (hβ : 0 ≤ β) (a b : ℝ) :
    (1 / (1 + Real.exp (β * (a - μ))) - 1 / (1 + Real.exp (β * (b - μ)))) / (a - b) ≤ 0 := by
  rcases le_total a b with h | h
  · exact div_nonpos_of_nonneg_of_nonpos (by have := occ_anti β μ hβ h; linarith) (by linarith)
  · exact div_nonpos_of_nonpos_of_nonneg (by have := occ_anti β μ hβ h; linarith) (by linarith)

/-! ## Conductivity -/

theorem velocity_star (lat : Mat3 ℝ) (pos : ℤ → Vec3 ℝ) (eng : List ℝ) (hops : List (Cell × Pair × ℂ)) (k : Vec3 ℝ)
    (c : Fin 3) (a b : ℤ) : star (velocity lat pos eng hops k c b a) = velocity lat pos eng hops k c a b := by
  rw [← velMat_eq lat pos eng hops k c, velMat_star]

theorem matEl_star (nb : ℕ) (v : IMat) (hv : ∀ a b : ℤ, star (v b a) = v a b) (u u' : ℕ → ℂ) :
    star (matEl nb v u u') = matEl nb v u' u := by
  simp only [matEl, star_sum]
  rw [Finset.sum_comm]
  refine Finset.sum_congr rfl fun a _ => Finset.sum_congr rfl fun b _ => ?_
  rw [star_mul', star_mul', star_star, hv]
  ring

/-- One pair of states absorbs a non-negative power from light of any polarisation. -/
theorem pair_re (P : Fin 3 → ℂ) (e : Fin 3 → ℂ) (g x δ : ℝ) (hg : g ≤ 0) (hδ : 0 ≤ δ) :
    0 ≤ (Complex.I * ∑ a, ∑ b, star (e a) * (star (P a) * P b * (g : ℂ) / ((x : ℂ) - Complex.I * (δ : ℂ))) * e b).re := by
  set z := ∑ b, P b * e b with hz
  have h1 : (∑ a, ∑ b, star (e a) * (star (P a) * P b * (g : ℂ) / ((x : ℂ) - Complex.I * (δ : ℂ))) * e b) =
      star z * z * (g : ℂ) / ((x : ℂ) - Complex.I * (δ : ℂ)) := by
    rw [hz, star_sum, Finset.sum_mul_sum, Finset.sum_mul, div_eq_mul_inv, Finset.sum_mul]
    refine Finset.sum_congr rfl fun a _ => ?_
    rw [Finset.sum_mul, Finset.sum_mul]
    refine Finset.sum_congr rfl fun b _ => ?_
    rw [star_mul']
    ring
  rw [h1, show star z * z = ((Complex.normSq z : ℝ) : ℂ) from (Complex.normSq_eq_conj_mul_self).symm]
  have h2 : (Complex.I * (((Complex.normSq z : ℝ) : ℂ) * (g : ℂ) / ((x : ℂ) - Complex.I * (δ : ℂ)))).re =
      Complex.normSq z * (-g) * δ / (x ^ 2 + δ ^ 2) := by
    rw [← Complex.ofReal_mul, Complex.mul_re, Complex.I_re, Complex.I_im, Complex.div_im]
    simp [Complex.normSq_apply]
    ring
  rw [h2]
  have := Complex.normSq_nonneg z
  have : 0 ≤ -g := by linarith
  positivity

theorem kubo_re (L : Lind) (pos : ℤ → Vec3 ℝ) (eng : List ℝ) (hops : List (Cell × Pair × ℂ))
    (s : (ℕ → ℕ → ℝ) × Arr3 ℂ) (kc : ℕ → Vec3 ℝ) (om : ℝ) (hβ : 0 ≤ L.beta) (hδ : 0 ≤ L.delta) (e : Fin 3 → ℂ) :
    0 ≤ (Complex.I * ∑ a, ∑ b, star (e a) * kuboSum L pos eng hops (a, b) s kc om * e b).re := by
  have h : (∑ a, ∑ b, star (e a) * kuboSum L pos eng hops (a, b) s kc om * e b) =
      ∑ k ∈ Finset.range L.numKpt, ∑ m ∈ Finset.range L.D.nb, ∑ n ∈ Finset.range L.D.nb, ∑ a, ∑ b, star (e a) *
        (if (1e-7 : ℝ) ≤ |s.1 k m - s.1 k n| then
      matEl L.D.nb (velocity L.lat pos eng hops (kc k) a) (s.2 k n) (s.2 k m) *
      matEl L.D.nb (velocity L.lat pos eng hops (kc k) b) (s.2 k m) (s.2 k n) *
      (((1 / (1 + Real.exp (L.beta * (s.1 k m - L.mu))) - 1 / (1 + Real.exp (L.beta * (s.1 k n - L.mu)))) /
        (s.1 k m - s.1 k n) : ℝ) : ℂ) /
      (((s.1 k m - s.1 k n - om : ℝ) : ℂ) - Complex.I * (L.delta : ℂ)) else 0) * e b := by
    simp only [kuboSum, kuboTerm, Finset.mul_sum, Finset.sum_mul]
    simp only [Finset.sum_comm (s := (Finset.univ : Finset (Fin 3))) (t := Finset.range _)]
  rw [h, Finset.mul_sum, Complex.re_sum]
  refine Finset.sum_nonneg fun k _ => ?_
  rw [Finset.mul_sum, Complex.re_sum]
  refine Finset.sum_nonneg fun m _ => ?_
  rw [Finset.mul_sum, Complex.re_sum]
  refine Finset.sum_nonneg fun n _ => ?_
  by_cases hc : (1e-7 : ℝ) ≤ |s.1 k m - s.1 k n|
  · simp only [hc, if_true]
    have hs : ∀ a, matEl L.D.nb (velocity L.lat pos eng hops (kc k) a) (s.2 k n) (s.2 k m) =
        star (matEl L.D.nb (velocity L.lat pos eng hops (kc k) a) (s.2 k m) (s.2 k n)) := fun a =>
      (matEl_star _ _ (velocity_star L.lat pos eng hops (kc k) a) _ _).symm
    simp only [hs]
    exact pair_re _ e _ _ _ (occ_slope _ _ hβ _ _) hδ
  · simp [hc]

theorem kubo_conj (L : Lind) (pos : ℤ → Vec3 ℝ) (eng : List ℝ) (hops : List (Cell × Pair × ℂ)) (comp : Fin 3 × Fin 3)
    (s : (ℕ → ℕ → ℝ) × Arr3 ℂ) (kc : ℕ → Vec3 ℝ) (om : ℝ) :
    kuboSum L pos eng hops comp s kc (-om) = - star (kuboSum L pos eng hops comp s kc om) := by
  simp only [kuboSum, kuboTerm, star_sum, ← Finset.sum_neg_distrib]
  refine Finset.sum_congr rfl fun k _ => ?_
  rw [Finset.sum_comm]
  refine Finset.sum_congr rfl fun m _ => Finset.sum_congr rfl fun n _ => ?_
  rw [abs_sub_comm (s.1 k n) (s.1 k m)]
  split
  · have hg : ∀ x y : ℝ, x / (s.1 k n - s.1 k m) = -x / (s.1 k m - s.1 k n) := fun x y => by
      rw [← neg_div_neg_eq, neg_sub]
    rw [hg _ 0, neg_sub]
    simp only [star_div₀, star_mul', matEl_star _ _ (velocity_star L.lat pos eng hops (kc k) _)]
    rw [← neg_div_neg_eq, ← neg_div]
    congr 1
    · rw [Complex.star_def, Complex.conj_ofReal]
    · simp only [star_sub, star_mul', Complex.star_def, Complex.conj_ofReal, Complex.conj_I]
      push_cast
      ring
  · simp

/-! ## Polarizability -/

theorem lind_static (L : Lind) (n : ℕ) (s s' : (ℕ → ℕ → ℝ) × Arr3 ℂ) (q : Vec3 ℝ) (hβ : 0 ≤ L.beta) :
    (lindhardSum L n s s' q 0).re ≤ 0 := by
  rw [lindhardSum, Complex.re_sum]
  refine Finset.sum_nonpos fun k _ => ?_
  rw [Complex.re_sum]
  refine Finset.sum_nonpos fun j _ => ?_
  rw [Complex.re_sum]
  refine Finset.sum_nonpos fun l _ => ?_
  have ho : 0 ≤ overlapSq L.D.nb q L.orbPos (s'.2 k l) (s.2 k j) := by unfold overlapSq; positivity
  generalize overlapSq L.D.nb q L.orbPos (s'.2 k l) (s.2 k j) = O at *
  have hp := occ_prod L.beta L.mu hβ (s.1 k j) (s'.1 k l)
  generalize 1 / (1 + Real.exp (L.beta * (s.1 k j - L.mu))) - 1 / (1 + Real.exp (L.beta * (s'.1 k l - L.mu))) = f at *
  have : (((O * f : ℝ) : ℂ) / (((s.1 k j - s'.1 k l + 0 : ℝ) : ℂ) + Complex.I * (L.delta : ℂ))).re =
      -(O * -(f * (s.1 k j - s'.1 k l)) / ((s.1 k j - s'.1 k l) ^ 2 + L.delta ^ 2)) := by
    rw [Complex.div_re]
    simp [Complex.normSq_apply]
    ring
  rw [this]
  have : 0 ≤ -(f * (s.1 k j - s'.1 k l)) := by linarith
  have : 0 ≤ O * -(f * (s.1 k j - s'.1 k l)) / ((s.1 k j - s'.1 k l) ^ 2 + L.delta ^ 2) := by positivity
  linarith

theorem overlapSq_swap (nb : ℕ) (q : Vec3 ℝ) (pos : ℕ → Vec3 ℝ) (u' u : ℕ → ℂ) :
    overlapSq nb (-q) pos u u' = overlapSq nb q pos u' u := by
  unfold overlapSq
  congr 1
  rw [← norm_star, star_sum]
  congr 1
  refine Finset.sum_congr rfl fun b _ => ?_
  rw [star_mul', star_mul', star_star, Complex.star_def, ← Complex.exp_conj, map_mul, Complex.conj_I,
    Complex.conj_ofReal]
  rw [show (∑ x, (-q) x * pos b x : ℝ) = -(∑ x, q x * pos b x) by
    rw [← Finset.sum_neg_distrib]; exact Finset.sum_congr rfl fun x _ => by simp]
  push_cast
  rw [show -Complex.I * -(∑ x, (q x : ℂ) * (pos b x : ℂ)) = Complex.I * (∑ x, (q x : ℂ) * (pos b x : ℂ)) by ring]
  ring

/-- The index of `k + q` on the mesh. -/
def kqIx (L : Lind) (q : Grid) (i : ℕ) : ℕ := ((buildKqMap L.mesh (buildKmeshGrid L.mesh) q).getD i 0).toNat

theorem kqIx_spec (L : Lind) (q : Grid) (i : ℕ) (hi : i < L.numKpt) :
    (buildKmeshGrid L.mesh)[kqIx L q i]? = some (wrapSum L.mesh ((buildKmeshGrid L.mesh)[i]'hi) q) := by
  have hg : (buildKmeshGrid L.mesh)[i]? = some (buildKmeshGrid L.mesh)[i] := List.getElem?_eq_getElem hi
  obtain ⟨_, h2⟩ := kmesh_kq L.mesh q _ (List.getElem_mem hi)
  have e : (buildKqMap L.mesh (buildKmeshGrid L.mesh) q).getD i 0 = kqIndex L.mesh q (buildKmeshGrid L.mesh)[i] := by
    rw [buildKqMap, List.getD_eq_getElem?_getD, List.getElem?_map, hg]
    rfl
  rw [kqIx, e]
  exact h2

/-- Minus a grid vector. -/
def negGrid (q : Grid) : Grid := (-q.1, -q.2.1, -q.2.2)

theorem wrapSum_neg (m : ℕ × ℕ × ℕ) (k q : Grid) (hk : k ∈ buildKmeshGrid m) : wrapSum m (wrapSum m k q) (negGrid q) = k := by
  obtain ⟨⟨a1, a2⟩, ⟨a3, a4⟩, a5, a6⟩ := (kmesh_mem m k).1 hk
  have key : ∀ x y n : ℤ, 0 ≤ x → x < n → ((x + y) % n + -y) % n = x := by
    intro x y n h1 h2
    rw [Int.emod_add_emod, add_neg_cancel_right, Int.emod_eq_of_lt h1 h2]
  exact Prod.ext (key _ _ _ a1 a2) (Prod.ext (key _ _ _ a3 a4) (key _ _ _ a5 a6))

theorem kqIx_neg (L : Lind) (q : Grid) (i : ℕ) (hi : i < L.numKpt) :
    kqIx L q i < L.numKpt ∧ kqIx L (negGrid q) (kqIx L q i) = i := by
  have h1 := kqIx_spec L q i hi
  obtain ⟨hl, h2⟩ := List.getElem?_eq_some_iff.1 h1
  refine ⟨hl, ?_⟩
  have h3 := kqIx_spec L (negGrid q) _ hl
  rw [h2, wrapSum_neg _ _ _ (List.getElem_mem hi)] at h3
  obtain ⟨hl', h4⟩ := List.getElem?_eq_some_iff.1 h3
  exact (List.Nodup.getElem_inj_iff (kmesh_nodup L.mesh)).1 h4

theorem kq_reindex (L : Lind) (q : Grid) (F : ℕ → ℕ → ℂ) :
    ∑ i ∈ Finset.range L.numKpt, F i (kqIx L (negGrid q) i) = ∑ i ∈ Finset.range L.numKpt, F (kqIx L q i) i := by
  have hnn : negGrid (negGrid q) = q := by simp [negGrid]
  refine Finset.sum_nbij' (kqIx L (negGrid q)) (kqIx L q) ?_ ?_ ?_ ?_ ?_
  · intro i hi; exact Finset.mem_range.2 (kqIx_neg L (negGrid q) i (Finset.mem_range.1 hi)).1
  · intro i hi; exact Finset.mem_range.2 (kqIx_neg L q i (Finset.mem_range.1 hi)).1
  · intro i hi
    have := (kqIx_neg L (negGrid q) i (Finset.mem_range.1 hi)).2
    rwa [hnn] at this
  · intro i hi; exact (kqIx_neg L q i (Finset.mem_range.1 hi)).2
  · intro i hi
    have := (kqIx_neg L (negGrid q) i (Finset.mem_range.1 hi)).2
    rw [hnn] at this
    rw [this]

/-- One term of the sum. -/
noncomputable def lindTerm (L : Lind) (O e e' om : ℝ) : ℂ :=
  ((O * (1 / (1 + Real.exp (L.beta * (e - L.mu))) - 1 / (1 + Real.exp (L.beta * (e' - L.mu)))) : ℝ) : ℂ) /
      (((e - e' + om : ℝ) : ℂ) + Complex.I * (L.delta : ℂ))

theorem lind_fwd (L : Lind) (q : Grid) (s s' : (ℕ → ℕ → ℝ) × Arr3 ℂ) (qc : Vec3 ℝ) (om : ℝ)
    (h' : ∀ i < L.numKpt, s'.1 i = s.1 (kqIx L q i) ∧ s'.2 i = s.2 (kqIx L q i)) :
    lindhardSum L L.numKpt s s' qc om = ∑ i ∈ Finset.range L.numKpt, ∑ j ∈ Finset.range L.D.nb, ∑ l ∈ Finset.range L.D.nb,
      lindTerm L (overlapSq L.D.nb qc L.orbPos (s.2 (kqIx L q i) l) (s.2 i j)) (s.1 i j) (s.1 (kqIx L q i) l) om := by
  rw [lindhardSum]
  refine Finset.sum_congr rfl fun i hi => Finset.sum_congr rfl fun j _ => Finset.sum_congr rfl fun l _ => ?_
  obtain ⟨h1, h2⟩ := h' i (Finset.mem_range.1 hi)
  rw [h1, h2]
  rfl

theorem lind_bwd (L : Lind) (q : Grid) (s s' : (ℕ → ℕ → ℝ) × Arr3 ℂ) (qc : Vec3 ℝ) (om : ℝ)
    (h' : ∀ i < L.numKpt, s'.1 i = s.1 (kqIx L (negGrid q) i) ∧ s'.2 i = s.2 (kqIx L (negGrid q) i)) :
    lindhardSum L L.numKpt s s' (-qc) om = ∑ i ∈ Finset.range L.numKpt, ∑ j ∈ Finset.range L.D.nb, ∑ l ∈ Finset.range L.D.nb,
      lindTerm L (overlapSq L.D.nb qc L.orbPos (s.2 (kqIx L q i) l) (s.2 i j)) (s.1 (kqIx L q i) l) (s.1 i j) om := by
  rw [lind_fwd L (negGrid q) s s' (-qc) om h']
  rw [kq_reindex L q (fun x y => ∑ j ∈ Finset.range L.D.nb, ∑ l ∈ Finset.range L.D.nb,
      lindTerm L (overlapSq L.D.nb (-qc) L.orbPos (s.2 y l) (s.2 x j)) (s.1 x j) (s.1 y l) om)]
  refine Finset.sum_congr rfl fun i hi => ?_
  rw [Finset.sum_comm]
  refine Finset.sum_congr rfl fun j _ => Finset.sum_congr rfl fun l _ => ?_
  rw [overlapSq_swap]

theorem lindTerm_conj (L : Lind) (O e e' om : ℝ) : lindTerm L O e' e (-om) = star (lindTerm L O e e' om) := by
  simp only [lindTerm, star_div₀, Complex.star_def, map_add, map_mul, Complex.conj_I, Complex.conj_ofReal]
  rw [← neg_div_neg_eq]
  congr 1
  · rw [← Complex.ofReal_neg]
    congr 1
    ring
  · push_cast
    ring

theorem lindTerm_im (L : Lind) (O e e' om : ℝ) (hβ : 0 ≤ L.beta) (hδ : 0 ≤ L.delta) (hO : 0 ≤ O) (hom : 0 ≤ om) :
    (lindTerm L O e e' om).im + (lindTerm L O e' e om).im ≤ 0 := by
  rcases hδ.eq_or_lt with h0 | hδ'
  · have : ∀ x : ℝ, (((x : ℝ) : ℂ) + Complex.I * (L.delta : ℂ)) = (x : ℂ) := fun x => by rw [← h0]; simp
    simp only [lindTerm, this, ← Complex.ofReal_div, Complex.ofReal_im, add_zero, le_refl]
  have him : ∀ x y : ℝ, (((x : ℝ) : ℂ) / ((y : ℂ) + Complex.I * (L.delta : ℂ))).im = -(x * L.delta / (y ^ 2 + L.delta ^ 2)) := by
    intro x y
    rw [Complex.div_im]
    simp [Complex.normSq_apply]
    ring
  simp only [lindTerm, him]
  have hp := occ_prod L.beta L.mu hβ e e'
  generalize 1 / (1 + Real.exp (L.beta * (e - L.mu))) = f at *
  generalize 1 / (1 + Real.exp (L.beta * (e' - L.mu))) = f' at *
  have hA : 0 < (e - e' + om) ^ 2 + L.delta ^ 2 := by positivity
  have hB : 0 < (e' - e + om) ^ 2 + L.delta ^ 2 := by positivity
  have : -(O * (f - f') * L.delta / ((e - e' + om) ^ 2 + L.delta ^ 2)) + -(O * (f' - f) * L.delta / ((e' - e + om) ^ 2 + L.delta ^ 2)) =
      -(4 * O * L.delta * om * -((f - f') * (e - e')) / (((e - e' + om) ^ 2 + L.delta ^ 2) * ((e' - e + om) ^ 2 + L.delta ^ 2))) := by
    field_simp
    ring
  rw [this]
  have : 0 ≤ -((f - f') * (e - e')) := by linarith
  have : 0 ≤ 4 * O * L.delta * om * -((f - f') * (e - e')) / (((e - e' + om) ^ 2 + L.delta ^ 2) * ((e' - e + om) ^ 2 + L.delta ^ 2)) := by
    positivity
  linarith

theorem lind_conj (L : Lind) (q : Grid) (s s1 s2 : (ℕ → ℕ → ℝ) × Arr3 ℂ) (qc : Vec3 ℝ) (om : ℝ)
    (h1 : ∀ i < L.numKpt, s1.1 i = s.1 (kqIx L q i) ∧ s1.2 i = s.2 (kqIx L q i))
    (h2 : ∀ i < L.numKpt, s2.1 i = s.1 (kqIx L (negGrid q) i) ∧ s2.2 i = s.2 (kqIx L (negGrid q) i)) :
    lindhardSum L L.numKpt s s2 (-qc) (-om) = star (lindhardSum L L.numKpt s s1 qc om) := by
  rw [lind_fwd L q s s1 qc om h1, lind_bwd L q s s2 qc _ h2]
  simp only [lindTerm_conj, star_sum]

theorem lind_im (L : Lind) (q : Grid) (s s1 s2 : (ℕ → ℕ → ℝ) × Arr3 ℂ) (qc : Vec3 ℝ) (om : ℝ)
    (h1 : ∀ i < L.numKpt, s1.1 i = s.1 (kqIx L q i) ∧ s1.2 i = s.2 (kqIx L q i))
    (h2 : ∀ i < L.numKpt, s2.1 i = s.1 (kqIx L (negGrid q) i) ∧ s2.2 i = s.2 (kqIx L (negGrid q) i))
    (hβ : 0 ≤ L.beta) (hδ : 0 ≤ L.delta) (hom : 0 ≤ om) :
    (lindhardSum L L.numKpt s s1 qc om).im + (lindhardSum L L.numKpt s s2 (-qc) om).im ≤ 0 := by
  rw [lind_fwd L q s s1 qc om h1, lind_bwd L q s s2 qc _ h2]
  simp only [Complex.im_sum, ← Finset.sum_add_distrib]
  refine Finset.sum_nonpos fun i _ => Finset.sum_nonpos fun j _ => Finset.sum_nonpos fun l _ => ?_
  exact lindTerm_im L _ _ _ _ hβ hδ (by unfold overlapSq; positivity) hom

/-! ## The specification, row by row -/

theorem mapM_get {ε X Y : Type*} (f : X → Except ε Y) (l : List X) (r : List Y) (h : l.mapM f = .ok r) (i : ℕ) (x : X)
    (hx : l[i]? = some x) : ∃ y, f x = .ok y ∧ r[i]? = some y := by
  induction l generalizing r i with
  | nil => simp at hx
  | cons a l ih =>
    rw [List.mapM_cons] at h
    cases ha : f a with
    | error e => rw [ha] at h; cases h
    | ok b =>
      cases hl : l.mapM f with
      | error e => rw [ha, hl] at h; cases h
      | ok bs =>
        rw [ha, hl] at h
        have h' : b :: bs = r := Except.ok.inj h
        subst h'
        cases i with
        | zero =>
          simp only [List.getElem?_cons_zero, Option.some.injEq] at hx
          subst hx
          exact ⟨b, ha, rfl⟩
        | succ i =>
          simp only [List.getElem?_cons_succ] at hx ⊢
          exact ih bs hl i hx

theorem reg_value (L : Lind) (qs : List Grid) (t : ℕ → ℕ → ℂ) (h : regSpec L qs = .ok t) (iq : ℕ) (q : Grid)
    (hq : qs[iq]? = some q) : ∃ B s s', genReciprocal L.lat = some B ∧ statesSpec L.D L.numKpt L.kFrac 2 = .ok s ∧
      (∀ i < L.numKpt, s'.1 i = s.1 (kqIx L q i) ∧ s'.2 i = s.2 (kqIx L q i)) ∧
      ∀ iw om, L.omegas[iw]? = some om → t iq iw =
        lindhardSum L L.numKpt s s' (frac2cartRow B 0 (L.grid2frac q)) om * (lindhardFactor L : ℂ) / (L.ext : ℂ) := by
  cases hB : genReciprocal L.lat with
  | none => simp [regSpec, Lind.frac2cart, hB, bind, Except.bind] at h
  | some B =>
  cases hs : statesSpec L.D L.numKpt L.kFrac 2 with
  | error e => simp [regSpec, Lind.frac2cart, hB, hs, bind, Except.bind] at h
  | ok s =>
  cases hss : qs.mapM (statesKq L) with
  | error e => simp [regSpec, Lind.frac2cart, hB, hs, hss, bind, Except.bind] at h
  | ok ss =>
  simp only [regSpec, Lind.frac2cart, hB, hs, hss, bind, Except.bind, Except.ok.injEq] at h
  obtain ⟨s', h1, h2⟩ := mapM_get _ _ _ hss iq q hq
  obtain ⟨s'', h3, h4⟩ := statesKq_ok L q s hs
  rw [h1] at h3
  cases h3
  refine ⟨B, s, s', rfl, rfl, h4, fun iw om ho => ?_⟩
  have : ((Verif.frac2cart B (qs.map L.grid2frac) 0).zip ss)[iq]? = some (frac2cartRow B 0 (L.grid2frac q), s') := by
    rw [List.getElem?_zip_eq_some]
    exact ⟨by simp [Verif.frac2cart, hq], h2⟩
  rw [← h]
  simp only [lindhardTable, this, ho]

theorem arb_value (L : Lind) (qs : List (Vec3 ℝ)) (t : ℕ → ℕ → ℂ) (h : arbSpec L qs = .ok t) (iq : ℕ) (q : Vec3 ℝ)
    (hq : qs[iq]? = some q) : ∃ s s', ∀ iw om, L.omegas[iw]? = some om → t iq iw =
        lindhardSum L L.numKpt s s' q om * (lindhardFactor L : ℂ) / (L.ext : ℂ) := by
  cases hB : L.cart2frac qs with
  | error e => simp [arbSpec, hB, bind, Except.bind] at h
  | ok qf =>
  cases hs : statesSpec L.D L.numKpt L.kFrac 2 with
  | error e => simp [arbSpec, hB, hs, bind, Except.bind] at h
  | ok s =>
  cases hss : qf.mapM (fun q => statesSpec L.D L.numKpt (fun i => L.kFrac i + q) 2) with
  | error e => simp [arbSpec, hB, hs, hss, bind, Except.bind] at h
  | ok ss =>
  simp only [arbSpec, hB, hs, hss, bind, Except.bind, Except.ok.injEq] at h
  have hl : qf.length = qs.length := by
    unfold Lind.cart2frac at hB
    split at hB
    · cases hB
    · rename_i B _
      split at hB
      · cases hB
      · rename_i fs hf
        cases hB
        unfold Verif.cart2frac at hf
        split at hf
        · cases hf
        · cases hf; simp
  have hi : iq < qf.length := hl ▸ (List.getElem?_eq_some_iff.1 hq).1
  obtain ⟨s', h1, h2⟩ := mapM_get _ _ _ hss iq qf[iq] (List.getElem?_eq_getElem hi)
  refine ⟨s, s', fun iw om ho => ?_⟩
  have : (qs.zip ss)[iq]? = some (q, s') := by
    rw [List.getElem?_zip_eq_some]
    exact ⟨hq, h2⟩
  rw [← h]
  simp only [lindhardTable, this, ho]

theorem factor_nonneg (L : Lind) (hg : 0 ≤ L.gs) : 0 ≤ lindhardFactor L := by
  unfold lindhardFactor norm3
  split <;> positivity

theorem grid_neg (L : Lind) (B : Mat3 ℝ) (q : Grid) :
    frac2cartRow B 0 (L.grid2frac (negGrid q)) = -frac2cartRow B 0 (L.grid2frac q) := by
  have : L.grid2frac (negGrid q) = -L.grid2frac q := by
    funext x
    fin_cases x <;> simp [Lind.grid2frac, negGrid, neg_div]
  rw [this]
  simp [frac2cartRow, Matrix.mulVec_neg]

end Verif

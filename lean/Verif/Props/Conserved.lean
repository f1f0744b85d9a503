import Verif.Spec.Conserved
import Verif.Props.Layers
import Verif.Proof.CellChoiceAC
import Verif.Spec.Overlap

/-! # C145: the polarization of a conserved charge -/

namespace Verif.Props

section Sums

variable {N : ℕ}

/-- Parseval's equation for the overlaps with a complete set of states. -/
theorem overlap_total {m m' : IMat} {q u : (ℕ → ℝ) × (ℕ → ℕ → ℂ)} (hq : Eigenpairs N N m q) (hu : Eigenpairs N N m' u) (Q : Vec3 ℝ)
    (pos : ℕ → Vec3 ℝ) {j : ℕ} (hj : j < N) :
    ∑ l ∈ Finset.range N, overlapSq N Q pos (fun o => u.2 o l) (fun o => q.2 o j) = 1 := by
  set x : ℕ → ℂ := fun b => q.2 b j * Complex.exp (Complex.I * ((∑ y, Q y * pos b y : ℝ) : ℂ)) with hx
  have hn : ∀ b, x b * star (x b) = star (q.2 b j) * q.2 b j := by
    intro b
    have e : Complex.exp (Complex.I * ((∑ y, Q y * pos b y : ℝ) : ℂ)) * star (Complex.exp (Complex.I * ((∑ y, Q y * pos b y : ℝ) : ℂ))) = 1 := by
      rw [Complex.star_def, ← Complex.exp_conj, ← Complex.exp_add]
      simp
    rw [hx]
    simp only [star_mul']
    linear_combination star (q.2 b j) * q.2 b j * e
  have h : ((∑ l ∈ Finset.range N, overlapSq N Q pos (fun o => u.2 o l) (fun o => q.2 o j) : ℝ) : ℂ) = 1 := by
    have h1 : ∀ l, ((overlapSq N Q pos (fun o => u.2 o l) (fun o => q.2 o j) : ℝ) : ℂ) =
        ∑ b ∈ Finset.range N, ∑ c ∈ Finset.range N, x b * star (x c) * (u.2 c l * star (u.2 b l)) := by
      intro l
      have h2 : ((overlapSq N Q pos (fun o => u.2 o l) (fun o => q.2 o j) : ℝ) : ℂ) =
          (∑ b ∈ Finset.range N, star (u.2 b l) * x b) * star (∑ c ∈ Finset.range N, star (u.2 c l) * x c) := by
        rw [overlapSq, Complex.star_def, Complex.mul_conj, Complex.normSq_eq_norm_sq]
        simp only [hx, mul_assoc]
      rw [h2, star_sum, Finset.sum_mul_sum]
      refine Finset.sum_congr rfl fun b _ => Finset.sum_congr rfl fun c _ => ?_
      rw [star_mul', star_star]
      ring
    rw [Complex.ofReal_sum, Finset.sum_congr rfl fun l _ => h1 l, Finset.sum_comm]
    have h3 : ∀ b ∈ Finset.range N, ∑ l ∈ Finset.range N, ∑ c ∈ Finset.range N, x b * star (x c) * (u.2 c l * star (u.2 b l)) =
        star (q.2 b j) * q.2 b j := by
      intro b hb
      rw [Finset.sum_comm, Finset.sum_eq_single b]
      · rw [← Finset.mul_sum, pairs_complete hu (Finset.mem_range.1 hb) (Finset.mem_range.1 hb), if_pos rfl, mul_one, hn]
      · intro c hc hcb
        rw [← Finset.mul_sum, pairs_complete hu (Finset.mem_range.1 hc) (Finset.mem_range.1 hb), if_neg hcb, mul_zero]
      · intro h0; exact absurd hb h0
    rw [Finset.sum_congr rfl h3, hq.orthonormal j hj j hj, if_pos rfl]
  exact_mod_cast h

/-- The response to a uniform potential at one k-point. -/
theorem uniform_zero {L : Lind} {n : ℕ} {s s' : (ℕ → ℕ → ℝ) × Arr3 ℂ}
    (h : ∀ k < n, rowOf s' k = rowOf s k ∧ ∃ m, Eigenpairs L.D.nb L.D.nb m (rowOf s k)) (om : ℝ) : lindhardSum L n s s' 0 om = 0 := by
  unfold lindhardSum
  refine Finset.sum_eq_zero fun k hk => Finset.sum_eq_zero fun j hj => Finset.sum_eq_zero fun l hl => ?_
  obtain ⟨e, m, hm⟩ := h k (Finset.mem_range.1 hk)
  have e1 : s'.1 k = s.1 k := congrArg Prod.fst e
  have e2 : ∀ l o, s'.2 k l o = s.2 k l o := fun l o => congrFun (congrFun (congrArg Prod.snd e) o) l
  rw [e1]
  by_cases hjl : j = l
  · subst hjl
    simp
  · have h0 : overlapSq L.D.nb 0 L.orbPos (s'.2 k l) (s.2 k j) = 0 := by
      have := hm.orthonormal l (Finset.mem_range.1 hl) j (Finset.mem_range.1 hj)
      rw [if_neg (Ne.symm hjl)] at this
      unfold overlapSq
      simp only [Pi.zero_apply, zero_mul, Finset.sum_const_zero, Complex.ofReal_zero, mul_zero, Complex.exp_zero, mul_one, e2]
      rw [show ∑ b ∈ Finset.range L.D.nb, star (s.2 k l b) * s.2 k j b = 0 from this]
      simp
    rw [h0]
    simp

theorem fermi_diff (x y : ℝ) : |1 / (1 + Real.exp x) - 1 / (1 + Real.exp y)| ≤ 1 := by
  have h : ∀ x : ℝ, 0 ≤ 1 / (1 + Real.exp x) ∧ 1 / (1 + Real.exp x) ≤ 1 := fun x => by
    have := Real.exp_pos x
    exact ⟨by positivity, by rw [div_le_one (by positivity)]; linarith⟩
  obtain ⟨a, b⟩ := h x
  obtain ⟨c, d⟩ := h y
  rw [abs_le]
  constructor <;> linarith

/-- The Lindhard sum is bounded by the number of states over the distance from resonance. -/
theorem lindhard_bound {L : Lind} {n : ℕ} {s s' : (ℕ → ℕ → ℝ) × Arr3 ℂ}
    (h : ∀ k < n, (∃ m, Eigenpairs L.D.nb L.D.nb m (rowOf s k)) ∧ ∃ m, Eigenpairs L.D.nb L.D.nb m (rowOf s' k)) {om γ : ℝ} (hγ : 0 < γ)
    (hd : ∀ k < n, ∀ j < L.D.nb, ∀ l < L.D.nb, γ ≤ |L.delta| ∨ γ ≤ |s.1 k j - s'.1 k l + om|) (Q : Vec3 ℝ) :
    ‖lindhardSum L n s s' Q om‖ ≤ n * L.D.nb / γ := by
  have key : ∀ k < n, ∀ j < L.D.nb, ‖∑ l ∈ Finset.range L.D.nb, ((overlapSq L.D.nb Q L.orbPos (s'.2 k l) (s.2 k j) *
        (1 / (1 + Real.exp (L.beta * (s.1 k j - L.mu))) - 1 / (1 + Real.exp (L.beta * (s'.1 k l - L.mu)))) : ℝ) : ℂ) /
      (((s.1 k j - s'.1 k l + om : ℝ) : ℂ) + Complex.I * (L.delta : ℂ))‖ ≤ 1 / γ := by
    intro k hk j hj
    obtain ⟨⟨m, hm⟩, m', hm'⟩ := h k hk
    have ht := overlap_total hm hm' Q L.orbPos hj
    refine (norm_sum_le _ _).trans ?_
    refine (Finset.sum_le_sum (g := fun l => overlapSq L.D.nb Q L.orbPos (s'.2 k l) (s.2 k j) / γ) fun l hl => ?_).trans
      (by rw [← Finset.sum_div]; exact (congrArg (· / γ) ht).le)
    have hO : 0 ≤ overlapSq L.D.nb Q L.orbPos (s'.2 k l) (s.2 k j) := by unfold overlapSq; positivity
    rw [norm_div, Complex.norm_real, Real.norm_eq_abs, abs_mul, abs_of_nonneg hO]
    set z : ℂ := ((s.1 k j - s'.1 k l + om : ℝ) : ℂ) + Complex.I * (L.delta : ℂ) with hz
    have hzn : γ ≤ ‖z‖ := by
      rcases hd k hk j hj l (Finset.mem_range.1 hl) with h1 | h1
      · refine h1.trans ?_
        have := Complex.abs_im_le_norm z
        simpa [hz] using this
      · refine h1.trans ?_
        have := Complex.abs_re_le_norm z
        simpa [hz] using this
    exact div_le_div₀ hO (mul_le_of_le_one_right hO (fermi_diff _ _)) hγ hzn
  unfold lindhardSum
  refine (norm_sum_le _ _).trans ?_
  refine (Finset.sum_le_sum (g := fun _ => (L.D.nb : ℝ) / γ) fun k hk => ?_).trans ?_
  · refine (norm_sum_le _ _).trans ((Finset.sum_le_sum fun j hj => key k (Finset.mem_range.1 hk) j (Finset.mem_range.1 hj)).trans ?_)
    rw [Finset.sum_const, Finset.card_range, nsmul_eq_mul, mul_one_div]
  · rw [Finset.sum_const, Finset.card_range, nsmul_eq_mul, mul_div_assoc]

end Sums

section Runs

variable {L : Lind}

theorem cons_pairs (hp : L.D.setOvl = none) (hz : ZheevSpec L.D) {n : ℕ} {P : ℕ → Vec3 ℝ} {s : (ℕ → ℕ → ℝ) × Arr3 ℂ}
    (h : statesSpec L.D n P 2 = .ok s) (k : ℕ) (hk : k < n) : ∃ m, Eigenpairs L.D.nb L.D.nb m (rowOf s k) := by
  obtain ⟨m, -, hm⟩ := eigen_ok _ hp _ _ _ (states_rows h k hk)
  exact ⟨m, hz _ _ hm⟩

/-- The entries of the table for arbitrary q-points, with the points at which the states are taken. -/
theorem arb_states (qs : List (Vec3 ℝ)) (t : ℕ → ℕ → ℂ) (h : arbSpec L qs = .ok t) (iq : ℕ) (q : Vec3 ℝ) (hq : qs[iq]? = some q) :
    ∃ B s s', genReciprocal L.lat = some B ∧ statesSpec L.D L.numKpt L.kFrac 2 = .ok s ∧ statesSpec L.D L.numKpt (fun i => L.kFrac i + cart2fracRow B 0 q) 2 = .ok s' ∧
      ∀ iw om, L.omegas[iw]? = some om → t iq iw = lindhardSum L L.numKpt s s' q om * (lindhardFactor L : ℂ) / (L.ext : ℂ) := by
  unfold arbSpec at h
  obtain ⟨qf, hqf, h⟩ := ok_split h
  obtain ⟨s, hs, h⟩ := ok_split h
  obtain ⟨ss, hss, h⟩ := ok_split h
  have hE := Except.ok.inj h
  unfold Lind.cart2frac at hqf
  split at hqf
  · cases hqf
  rename_i B hB
  split at hqf
  · cases hqf
  rename_i fs hf
  obtain rfl := Except.ok.inj hqf
  unfold Verif.cart2frac at hf
  split at hf
  · cases hf
  obtain rfl := Option.some.inj hf
  obtain ⟨s', h1, h2⟩ := mapM_get _ _ _ hss iq (cart2fracRow B 0 q) (by rw [List.getElem?_map, hq]; rfl)
  refine ⟨B, s, s', hB, hs, h1, fun iw om ho => ?_⟩
  have : (qs.zip ss)[iq]? = some (q, s') := List.getElem?_zip_eq_some.2 ⟨hq, h2⟩
  rw [← hE]
  simp only [lindhardTable, this, ho]

/-- The entries of the table for q-points of the mesh, with the points at which the states are taken. -/
theorem reg_states (qs : List Grid) (t : ℕ → ℕ → ℂ) (h : regSpec L qs = .ok t) (iq : ℕ) (q : Grid) (hq : qs[iq]? = some q) :
    ∃ B s s', genReciprocal L.lat = some B ∧ statesSpec L.D L.numKpt L.kFrac 2 = .ok s ∧ statesKq L q = .ok s' ∧
      ∀ iw om, L.omegas[iw]? = some om → t iq iw =
        lindhardSum L L.numKpt s s' (frac2cartRow B 0 (L.grid2frac q)) om * (lindhardFactor L : ℂ) / (L.ext : ℂ) := by
  unfold regSpec at h
  obtain ⟨qc, hqc, h⟩ := ok_split h
  obtain ⟨s, hs, h⟩ := ok_split h
  obtain ⟨ss, hss, h⟩ := ok_split h
  have hE := Except.ok.inj h
  unfold Lind.frac2cart at hqc
  split at hqc
  · cases hqc
  rename_i B hB
  obtain rfl := Except.ok.inj hqc
  obtain ⟨s', h1, h2⟩ := mapM_get _ _ _ hss iq q hq
  refine ⟨B, s, s', hB, hs, h1, fun iw om ho => ?_⟩
  have : ((frac2cart B (qs.map L.grid2frac) 0).zip ss)[iq]? = some (frac2cartRow B 0 (L.grid2frac q), s') :=
    List.getElem?_zip_eq_some.2 ⟨by simp [frac2cart, hq], h2⟩
  rw [← hE]
  simp only [lindhardTable, this, ho]

/-- C145: a uniform potential does not polarize, at any frequency (arbitrary q-points; any number of processes and other q-points).  Missing: models
with an overlap, for which the claim is false (`C145_overlap_wrong`). -/
theorem C145_uniform_arbitrary_partial (hp : L.D.setOvl = none) (hz : ZheevSpec L.D) (hd : L.dim = 2 ∨ L.dim = 3) {w : World} (hn : w.size ≤ L.numKpt)
    {buf : ℕ → Buf} {fortran : Bool} {qs : List (Vec3 ℝ)} {d : ℕ → ℕ → ℕ → ℂ} (hok : L.dynPolArbitrary w buf fortran qs = .ok d) (r : ℕ)
    (hr : r < w.size) (iq : ℕ) (hq : qs[iq]? = some 0) (iw : ℕ) (hw : iw < L.omegas.length) : d r iq iw = 0 := by
  have g := (C45_rows L w buf fortran hd hn r hr).2 qs
  rw [hok] at g
  obtain ⟨t, ht, g⟩ := map_eq_ok g.symm
  replace g := congrFun (congrFun g iq) iw
  obtain ⟨B, s, s', -, hs, hs', hv⟩ := arb_states qs t ht iq 0 hq
  have e0 : cart2fracRow B 0 0 = 0 := by simp [cart2fracRow]
  simp only [e0, add_zero] at hs'
  obtain rfl : s = s' := Except.ok.inj (hs.symm.trans hs')
  have h0 := hv iw _ (List.getElem?_eq_getElem hw)
  rw [uniform_zero (fun k hk => ⟨rfl, cons_pairs hp hz hs k hk⟩), zero_mul, zero_div] at h0
  refine g.symm.trans ?_
  show _ * t iq iw = 0
  rw [h0, mul_zero]

/-- C145: likewise at the point zero of the mesh. -/
theorem C145_uniform_regular_partial (hp : L.D.setOvl = none) (hz : ZheevSpec L.D) (hd : L.dim = 2 ∨ L.dim = 3) {w : World} (hn : w.size ≤ L.numKpt)
    {buf : ℕ → Buf} {fortran : Bool} {qs : List Grid} {d : ℕ → ℕ → ℕ → ℂ} (hok : L.dynPolRegular w buf fortran qs = .ok d) (r : ℕ)
    (hr : r < w.size) (iq : ℕ) (hq : qs[iq]? = some (0, 0, 0)) (iw : ℕ) (hw : iw < L.omegas.length) : d r iq iw = 0 := by
  have g := (C45_rows L w buf fortran hd hn r hr).1 qs
  rw [hok] at g
  obtain ⟨t, ht, g⟩ := map_eq_ok g.symm
  replace g := congrFun (congrFun g iq) iw
  obtain ⟨B, s, s', -, hs, hs', hv⟩ := reg_states qs t ht iq _ hq
  have e0 : frac2cartRow B 0 (L.grid2frac (0, 0, 0)) = 0 := by
    have : L.grid2frac (0, 0, 0) = 0 := by
      funext x
      fin_cases x <;> simp [Lind.grid2frac]
    rw [this]
    simp [frac2cartRow]
  rw [e0] at hv
  have hrow : ∀ k < L.numKpt, rowOf s' k = rowOf s k := by
    intro k hk
    have h1 := states_rows hs k hk
    have h2 := states_rows hs' k hk
    have hm := (kmesh_mem L.mesh _).1 (List.getElem_mem (l := buildKmeshGrid L.mesh) hk)
    have e : wrapSum L.mesh ((buildKmeshGrid L.mesh).getD k (0, 0, 0)) (0, 0, 0) = (buildKmeshGrid L.mesh).getD k (0, 0, 0) := by
      rw [List.getD_eq_getElem?_getD, List.getElem?_eq_getElem (show k < (buildKmeshGrid L.mesh).length from hk), Option.getD_some]
      obtain ⟨⟨a, b⟩, ⟨c, d⟩, e, f⟩ := hm
      refine Prod.ext ?_ (Prod.ext ?_ ?_)
      · exact (congrArg (· % _) (add_zero _)).trans (Int.emod_eq_of_lt a b)
      · exact (congrArg (· % _) (add_zero _)).trans (Int.emod_eq_of_lt c d)
      · exact (congrArg (· % _) (add_zero _)).trans (Int.emod_eq_of_lt e f)
    rw [e] at h2
    exact Except.ok.inj (h2.symm.trans h1)
  have h0 := hv iw _ (List.getElem?_eq_getElem hw)
  rw [uniform_zero (fun k hk => ⟨hrow k hk, cons_pairs hp hz hs k hk⟩), zero_mul, zero_div] at h0
  refine g.symm.trans ?_
  show _ * t iq iw = 0
  rw [h0, mul_zero]

theorem far_bound {E W : ℝ} (hW : BandWidth L.D E W) {n : ℕ} {P P' : ℕ → Vec3 ℝ} {s s' : (ℕ → ℕ → ℝ) × Arr3 ℂ}
    (hs : statesSpec L.D n P 2 = .ok s) (hs' : statesSpec L.D n P' 2 = .ok s') {om γ : ℝ} (hγ : γ ≤ |L.delta| ∨ γ ≤ |om| - W) (k : ℕ) (hk : k < n)
    (j : ℕ) (hj : j < L.D.nb) (l : ℕ) (hl : l < L.D.nb) : γ ≤ |L.delta| ∨ γ ≤ |s.1 k j - s'.1 k l + om| := by
  refine hγ.imp id fun h => h.trans ?_
  have h1 := hW _ _ (states_rows hs k hk) j hj
  have h2 := hW _ _ (states_rows hs' k hk) l hl
  have h3 : |s.1 k j - s'.1 k l| ≤ W := by
    rw [abs_le]
    constructor <;> linarith [h1.1, h1.2, h2.1, h2.2]
  have h4 := abs_sub_abs_le_abs_sub om (-(s.1 k j - s'.1 k l))
  rw [abs_neg, sub_neg_eq_add, add_comm om] at h4
  linarith

/-- C145: the polarization is bounded by the number of states over the broadening; at frequencies beyond the width of the bands, over the distance
from them, whatever the broadening.  (For models without overlap, and one process or one q-point; for several
of both the code is wrong, C45.) -/
theorem C145_bound_partial (hp : L.D.setOvl = none) (hz : ZheevSpec L.D) (hd : L.dim = 2 ∨ L.dim = 3) {E W : ℝ} (hW : BandWidth L.D E W) {w : World}
    (hn : w.size ≤ L.numKpt) {buf : ℕ → Buf} {fortran : Bool} {d : ℕ → ℕ → ℕ → ℂ} {num : ℕ} (h1 : w.size = 1 ∨ num ≤ 1)
    (hok : (∃ qs, qs.length = num ∧ L.dynPolArbitrary w buf fortran qs = .ok d) ∨ ∃ qs, qs.length = num ∧ L.dynPolRegular w buf fortran qs = .ok d)
    (r : ℕ) (hr : r < w.size) (iq : ℕ) (hq : iq < num) (iw : ℕ) (om : ℝ) (hw : L.omegas[iw]? = some om) (γ : ℝ) (h0 : 0 < γ)
    (hγ : γ ≤ |L.delta| ∨ γ ≤ |om| - W) :
    ‖d r iq iw‖ ≤ L.numKpt * L.D.nb / γ * |lindhardFactor L| / |L.ext| := by
  have fin : ∀ S : ℂ, ‖S‖ ≤ L.numKpt * L.D.nb / γ → ‖S * (lindhardFactor L : ℂ) / (L.ext : ℂ)‖ ≤ L.numKpt * L.D.nb / γ * |lindhardFactor L| / |L.ext| := by
    intro S hS
    rw [norm_div, norm_mul, Complex.norm_real, Complex.norm_real, Real.norm_eq_abs, Real.norm_eq_abs]
    gcongr
  rcases hok with ⟨qs, rfl, hok⟩ | ⟨qs, rfl, hok⟩
  · have g := (C45_partial L w buf fortran hd hn r hr).2 qs h1
    rw [hok] at g
    obtain ⟨B, s, s', -, hs, hs', hv⟩ := arb_states qs (d r) g.symm iq _ (List.getElem?_eq_getElem hq)
    rw [hv iw om hw]
    exact fin _ (lindhard_bound (fun k hk => ⟨cons_pairs hp hz hs k hk, cons_pairs hp hz hs' k hk⟩) h0 (far_bound hW hs hs' hγ) _)
  · have g := (C45_partial L w buf fortran hd hn r hr).1 qs h1
    rw [hok] at g
    obtain ⟨B, s, s', -, hs, hs', hv⟩ := reg_states qs (d r) g.symm iq _ (List.getElem?_eq_getElem hq)
    rw [hv iw om hw]
    exact fin _ (lindhard_bound (fun k hk => ⟨cons_pairs hp hz hs k hk, cons_pairs hp hz hs' k hk⟩) h0 (far_bound hW hs hs' hγ) _)

end Runs

section Cases

/-- A molecule probed at a frequency beyond its levels. -/
noncomputable def farCalc : Lind := { pairCalc with omegas := [6] }

theorem far_width : BandWidth farCalc.D (-1) 2 := by
  intro k q hq j _
  obtain rfl := Except.ok.inj ((pairSolver_eigen 1 k 2).symm.trans hq)
  show -1 ≤ (if j = 0 then -(1 : ℝ) else 1) ∧ (if j = 0 then -(1 : ℝ) else 1) ≤ -1 + 2
  split_ifs <;> norm_num

/-- A molecule for which the hypotheses of C145 hold: no response at zero wave vector, and a small one elsewhere. -/
theorem C145_example (w : World) (hw : w.size = 1) (buf : ℕ → Buf) (fortran : Bool) (Q : Vec3 ℝ) :
    ∃ d, farCalc.dynPolArbitrary w buf fortran [0, Q] = .ok d ∧ d 0 0 0 = 0 ∧ ‖d 0 1 0‖ ≤ 1 / 2 := by
  have hn1 : farCalc.numKpt = 1 := by
    show (buildKmeshGrid (1, 1, 1)).length = 1
    decide
  have hdet : farCalc.lat.det ≠ 0 := by simp [farCalc, pairCalc]
  obtain ⟨⟨d, hd⟩, -⟩ := calc_runs (L := farCalc) (fun k c => ⟨_, pairSolver_eigen 1 k c⟩) hdet (Or.inr rfl) w (by omega) buf fortran [0, Q]
    (fun _ => 0) [] (0, 0)
  refine ⟨d, hd, ?_, ?_⟩
  · exact C145_uniform_arbitrary_partial (L := farCalc) rfl (pair_zheev 1) (Or.inr rfl) (by omega) hd 0 w.pos 0 rfl 0 (by simp [farCalc])
  · have h := C145_bound_partial (L := farCalc) rfl (pair_zheev 1) (Or.inr rfl) far_width (w := w) (by omega) (num := 2) (Or.inl hw) (Or.inl ⟨_, rfl, hd⟩)
      0 w.pos 1 (by norm_num) 0 6 rfl 4 (by norm_num) (Or.inr (by norm_num))
    have hf : lindhardFactor farCalc = 1 := by simp [lindhardFactor, farCalc, pairCalc]
    rw [hn1, hf] at h
    refine h.trans (le_of_eq ?_)
    show ((1 : ℕ) : ℝ) * ((2 : ℕ) : ℝ) / 4 * |1| / |(1 : ℝ)| = 1 / 2
    norm_num

/-- Two orbitals with the energies 0 and 1 and the overlap -3/5. -/
noncomputable def ovStates : (ℕ → ℝ) × (ℕ → ℕ → ℂ) :=
  (fun b => if b = 0 then 0 else 25 / 16, fun o b => if b = 0 then (if o = 0 then 1 else 0) else if o = 0 then 3 / 4 else 5 / 4)

/-- The solver of the two orbitals. -/
noncomputable def ovSolver : Diag where
  nb := 2
  setHam _ _ h := .ok fun a b => h a b + if a = 1 ∧ b = 1 then 1 else 0
  zheev _ := none
  argsort _ := [0, 1]
  setOvl := some fun _ _ s => .ok fun a b => s a b + if a = b then 1 else -3 / 5
  zhegv h s := open Classical in if (h 0 0 = 0 ∧ h 0 1 = 0 ∧ h 1 0 = 0 ∧ h 1 1 = 1) ∧ s 0 0 = 1 ∧ s 0 1 = -3 / 5 ∧ s 1 0 = -3 / 5 ∧ s 1 1 = 1 then
    some ovStates else none

theorem ov_zhegv : ZhegvOk 2 ovSolver.zhegv := by
  intro h s _ _ ev vec hq
  have hq' : (open Classical in if (h 0 0 = 0 ∧ h 0 1 = 0 ∧ h 1 0 = 0 ∧ h 1 1 = 1) ∧ s 0 0 = 1 ∧ s 0 1 = -3 / 5 ∧ s 1 0 = -3 / 5 ∧ s 1 1 = 1 then
    some ovStates else none) = some (ev, vec) := hq
  split_ifs at hq' with hc
  obtain ⟨⟨h1, h2, h3, h4⟩, s1, s2, s3, s4⟩ := hc
  obtain ⟨rfl, rfl⟩ := Prod.mk.inj (Option.some.inj hq')
  constructor
  · intro i hi j hj
    interval_cases i <;> interval_cases j <;> simp [Finset.sum_range_succ, h1, h2, h3, h4, s1, s2, s3, s4] <;> norm_num
  · intro i hi j hj
    have c3 : (starRingEnd ℂ) 3 = 3 := Complex.conj_eq_iff_im.2 rfl
    have c4 : (starRingEnd ℂ) 4 = 4 := Complex.conj_eq_iff_im.2 rfl
    have c5 : (starRingEnd ℂ) 5 = 5 := Complex.conj_eq_iff_im.2 rfl
    interval_cases i <;> interval_cases j <;> simp [Finset.sum_range_succ, s1, s2, s3, s4, c3, c4, c5] <;> norm_num

theorem ov_eigen (k : Vec3 ℝ) (conv : ℤ) : eigen ovSolver k conv = .ok ovStates := by
  have h0 : ovSolver.zhegv (fun a b => (0 : ℂ) + if a = 1 ∧ b = 1 then 1 else 0) (fun a b => (0 : ℂ) + if a = b then 1 else -3 / 5) = some ovStates := by
    simp [ovSolver]
  unfold eigen
  rw [show ovSolver.setHam k conv (fun _ _ => 0) = .ok fun a b => (0 : ℂ) + if a = 1 ∧ b = 1 then 1 else 0 from rfl]
  show (match ovSolver.zhegv (fun a b => (0 : ℂ) + if a = 1 ∧ b = 1 then 1 else 0) (fun a b => (0 : ℂ) + if a = b then 1 else -3 / 5) with
    | none => Except.error ParErr.runtime
    | some r => .ok r) = _
  rw [h0]

/-- The calculator of the two orbitals. -/
noncomputable def ovCalc : Lind := { pairCalc with D := ovSolver }

theorem ov_overlap (pos : ℕ → Vec3 ℝ) : overlapSq 2 0 pos (fun o => ovStates.2 o 1) (fun o => ovStates.2 o 0) = 9 / 16 ∧
    overlapSq 2 0 pos (fun o => ovStates.2 o 0) (fun o => ovStates.2 o 1) = 9 / 16 := by
  constructor <;> simp [overlapSq, Finset.sum_range_succ, ovStates] <;> norm_num

/-- C145 is false with an overlap: the code uses the scalar product of the coefficients, in which the states are not orthogonal, and finds a response
to a uniform static potential. -/
theorem C145_overlap_wrong (w : World) (hw : w.size = 1) (buf : ℕ → Buf) (fortran : Bool) :
    ZhegvOk 2 ovCalc.D.zhegv ∧ ∃ d, ovCalc.dynPolArbitrary w buf fortran [0] = .ok d ∧ d 0 0 0 ≠ 0 := by
  refine ⟨ov_zhegv, ?_⟩
  have hn1 : ovCalc.numKpt = 1 := by
    show (buildKmeshGrid (1, 1, 1)).length = 1
    decide
  have hdet : ovCalc.lat.det ≠ 0 := by simp [ovCalc, pairCalc]
  obtain ⟨⟨d, hd⟩, -⟩ := calc_runs (L := ovCalc) (fun k c => ⟨_, ov_eigen k c⟩) hdet (Or.inr rfl) w (by omega) buf fortran [0] (fun _ => 0) [] (0, 0)
  refine ⟨d, hd, ?_⟩
  have g := (C45_partial ovCalc w buf fortran (Or.inr rfl) (by omega) 0 w.pos).2 [0] (Or.inl hw)
  rw [hd] at g
  obtain ⟨B, s, s', -, hs, hs', hv⟩ := arb_states [0] (d 0) g.symm 0 0 rfl
  have e1 := Except.ok.inj ((states_rows hs 0 (by omega)).symm.trans (ov_eigen _ _))
  have e2 := Except.ok.inj ((states_rows hs' 0 (by omega)).symm.trans (ov_eigen _ _))
  have a1 : s.1 0 = ovStates.1 := congrArg Prod.fst e1
  have a2 : s'.1 0 = ovStates.1 := congrArg Prod.fst e2
  have b1 : ∀ l, s.2 0 l = fun o => ovStates.2 o l := fun l => funext fun o => congrFun (congrFun (congrArg Prod.snd e1) o) l
  have b2 : ∀ l, s'.2 0 l = fun o => ovStates.2 o l := fun l => funext fun o => congrFun (congrFun (congrArg Prod.snd e2) o) l
  have hf : lindhardFactor ovCalc = 1 := by simp [lindhardFactor, ovCalc, pairCalc]
  rw [hv 0 0 rfl, hf, hn1]
  have hb : ovCalc.D.nb = 2 := rfl
  have hx : ovCalc.ext = 1 := rfl
  have hbe : ovCalc.beta = 1 := rfl
  have hmu : ovCalc.mu = 0 := rfl
  have hde : ovCalc.delta = 1 := rfl
  have v0 : ovStates.1 0 = 0 := rfl
  have v1 : ovStates.1 1 = 25 / 16 := rfl
  set Δ : ℝ := 1 / (1 + Real.exp 0) - 1 / (1 + Real.exp (25 / 16)) with hΔ
  have hpos : 0 < Δ := by
    rw [hΔ, sub_pos]
    have : Real.exp 0 < Real.exp (25 / 16) := Real.exp_lt_exp.2 (by norm_num)
    exact one_div_lt_one_div_of_lt (by positivity) (by linarith)
  have hsum : lindhardSum ovCalc 1 s s' 0 0 = ((9 / 16 * Δ : ℝ) : ℂ) / ((-(25 / 16) : ℝ) + Complex.I) + ((9 / 16 * -Δ : ℝ) : ℂ) / ((25 / 16 : ℝ) + Complex.I) := by
    unfold lindhardSum
    rw [hb, Finset.sum_range_one]
    simp only [Finset.sum_range_succ, Finset.sum_range_zero, a1, a2, b1, b2, (ov_overlap _).1, (ov_overlap _).2, v0, v1, hbe, hmu, hde, one_mul, sub_zero, sub_self,
      mul_zero, Complex.ofReal_zero, Complex.ofReal_one, zero_div, add_zero, zero_add, mul_one, zero_sub, hΔ, neg_sub]
  rw [hsum, hx]
  have n1 : ((-(25 / 16) : ℝ) : ℂ) + Complex.I ≠ 0 := fun h => by simpa using congrArg Complex.im h
  have n2 : ((25 / 16 : ℝ) : ℂ) + Complex.I ≠ 0 := fun h => by simpa using congrArg Complex.im h
  have key : ((9 / 16 * Δ : ℝ) : ℂ) / ((-(25 / 16) : ℝ) + Complex.I) + ((9 / 16 * -Δ : ℝ) : ℂ) / ((25 / 16 : ℝ) + Complex.I) =
      ((9 / 16 * Δ * (25 / 8) : ℝ) : ℂ) / ((((-(25 / 16) : ℝ) : ℂ) + Complex.I) * (((25 / 16 : ℝ) : ℂ) + Complex.I)) := by
    rw [div_add_div _ _ n1 n2]
    congr 1
    push_cast
    ring
  rw [key, Complex.ofReal_one, mul_one, div_one]
  refine div_ne_zero ?_ (mul_ne_zero n1 n2)
  exact_mod_cast (by positivity : (9 / 16 * Δ * (25 / 8) : ℝ) ≠ 0)

end Cases

end Verif.Props

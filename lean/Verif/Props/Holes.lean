import Verif.Spec.Holes
import Verif.Props.Conserved
import Verif.Props.BipartiteBands
import Verif.Spec.CellChoice

/-! # C146: response of electrons and of holes -/

namespace Verif.Props

section Flip

variable {N : ℕ} {c : ℕ → Bool}

/-- The sign of an orbital. -/
def kindSgn (c : ℕ → Bool) (o : ℕ) : ℂ := if c o then -1 else 1

theorem kind_sq (o : ℕ) : kindSgn c o * kindSgn c o = 1 := by unfold kindSgn; split_ifs <;> ring

theorem kind_star (o : ℕ) : star (kindSgn c o) = kindSgn c o := by unfold kindSgn; split_ifs <;> simp

theorem kind_ne {o p : ℕ} (h : c o ≠ c p) : kindSgn c p = -kindSgn c o := by
  unfold kindSgn
  cases hc : c o <;> cases hp : c p <;> simp_all

/-- The states of the opposite energies. -/
noncomputable def flipRows (c : ℕ → Bool) (s : (ℕ → ℕ → ℝ) × Arr3 ℂ) : (ℕ → ℕ → ℝ) × Arr3 ℂ :=
  (fun k j => -s.1 k j, fun k j o => kindSgn c o * s.2 k j o)

theorem flip_pairs {m : IMat} (hb : ∀ i < N, ∀ j < N, c i = c j → m i j = 0) {s : (ℕ → ℕ → ℝ) × Arr3 ℂ} {k : ℕ} (h : Eigenpairs N N m (rowOf s k)) :
    Eigenpairs N N m (rowOf (flipRows c s) k) := by
  constructor
  · intro j hj o ho
    have h1 := h.eigen j hj o ho
    have h2 : ∀ x ∈ Finset.range N, m o x * (kindSgn c x * s.2 k j x) = -kindSgn c o * (m o x * s.2 k j x) := by
      intro x hx
      by_cases hc : c o = c x
      · rw [hb o ho x (Finset.mem_range.1 hx) hc]; ring
      · rw [kind_ne hc]; ring
    show ∑ x ∈ Finset.range N, m o x * (kindSgn c x * s.2 k j x) = ((-s.1 k j : ℝ) : ℂ) * (kindSgn c o * s.2 k j o)
    rw [Finset.sum_congr rfl h2, ← Finset.mul_sum]
    replace h1 : ∑ x ∈ Finset.range N, m o x * s.2 k j x = (s.1 k j : ℂ) * s.2 k j o := h1
    rw [h1]
    push_cast
    ring
  · intro j hj j' hj'
    rw [← h.orthonormal j hj j' hj']
    refine Finset.sum_congr rfl fun x _ => ?_
    show star (kindSgn c x * s.2 k j x) * (kindSgn c x * s.2 k j' x) = star (s.2 k j x) * s.2 k j' x
    rw [star_mul', kind_star]
    linear_combination star (s.2 k j x) * s.2 k j' x * kind_sq (c := c) x

theorem flip_overlap (Q : Vec3 ℝ) (pos : ℕ → Vec3 ℝ) (s s' : (ℕ → ℕ → ℝ) × Arr3 ℂ) (k l j : ℕ) :
    overlapSq N Q pos ((flipRows c s').2 k l) ((flipRows c s).2 k j) = overlapSq N Q pos (s'.2 k l) (s.2 k j) := by
  unfold overlapSq
  congr 2
  refine Finset.sum_congr rfl fun x _ => ?_
  show star (kindSgn c x * s'.2 k l x) * (kindSgn c x * s.2 k j x) * _ = _
  rw [star_mul', kind_star]
  linear_combination star (s'.2 k l x) * s.2 k j x * Complex.exp (Complex.I * ((∑ y, Q y * pos x y : ℝ) : ℂ)) * kind_sq (c := c) x

/-- Holes are missing electrons. -/
theorem fermi_holes (β μ e : ℝ) : 1 / (1 + Real.exp (β * (-e - -μ))) = 1 - 1 / (1 + Real.exp (β * (e - μ))) := by
  have h : Real.exp (β * (-e - -μ)) = (Real.exp (β * (e - μ)))⁻¹ := by
    rw [← Real.exp_neg]
    congr 1
    ring
  rw [h]
  have := Real.exp_pos (β * (e - μ))
  field_simp
  ring

end Flip

section Polarization

variable {L : Lind} {c : ℕ → Bool}

theorem holes_sum (h : TwoKinds L.D c) (hz : ZheevSpec L.D) {n : ℕ} {P P' : ℕ → Vec3 ℝ} {s s' : (ℕ → ℕ → ℝ) × Arr3 ℂ}
    (hs : statesSpec L.D n P 2 = .ok s) (hs' : statesSpec L.D n P' 2 = .ok s') (Q : Vec3 ℝ) (om : ℝ) :
    lindhardSum L.opposite n s s' Q om = star (lindhardSum L n s s' Q (-om)) := by
  have h1 : lindhardSum L.opposite n s s' Q om = lindhardSum L.opposite n (flipRows c s) (flipRows c s') Q om := by
    rw [lindhard_pairs, lindhard_pairs]
    refine Finset.sum_congr rfl fun k hk => ?_
    have hk := Finset.mem_range.1 hk
    obtain ⟨m, hm, hm1⟩ := eigen_ok _ h.plain _ _ _ (states_rows hs k hk)
    obtain ⟨m', hm', hm1'⟩ := eigen_ok _ h.plain _ _ _ (states_rows hs' k hk)
    have a : Eigenpairs L.D.nb L.D.nb m (rowOf s k) := hz _ _ hm1
    have a' : Eigenpairs L.D.nb L.D.nb m' (rowOf s' k) := hz _ _ hm1'
    exact pair_unique _ _ _ a (flip_pairs (h.ham _ _ _ hm) a) a' (flip_pairs (h.ham _ _ _ hm') a')
  rw [h1]
  unfold lindhardSum
  simp only [star_sum]
  refine Finset.sum_congr rfl fun k _ => Finset.sum_congr rfl fun j _ => Finset.sum_congr rfl fun l _ => ?_
  have ho : overlapSq L.opposite.D.nb Q L.opposite.orbPos ((flipRows c s').2 k l) ((flipRows c s).2 k j) =
      overlapSq L.D.nb Q L.orbPos (s'.2 k l) (s.2 k j) := flip_overlap _ _ _ _ _ _ _
  rw [ho]
  show ((overlapSq L.D.nb Q L.orbPos (s'.2 k l) (s.2 k j) * (1 / (1 + Real.exp (L.beta * (-s.1 k j - -L.mu))) -
    1 / (1 + Real.exp (L.beta * (-s'.1 k l - -L.mu)))) : ℝ) : ℂ) / (((-s.1 k j - -s'.1 k l + om : ℝ) : ℂ) + Complex.I * (L.delta : ℂ)) = _
  rw [fermi_holes, fermi_holes, Complex.star_def, map_div₀, Complex.conj_ofReal, map_add, Complex.conj_ofReal, map_mul, Complex.conj_I, Complex.conj_ofReal,
    ← neg_div_neg_eq]
  congr 1
  · push_cast
    ring
  · push_cast
    ring

/-- C146: the polarization of a model with as many holes is the conjugate of that at the opposite frequency. -/
theorem C146_dyn_arbitrary (h : TwoKinds L.D c) (hz : ZheevSpec L.D) (hd : L.dim = 2 ∨ L.dim = 3) {w : World} (hn : w.size ≤ L.numKpt)
    {buf buf' : ℕ → Buf} {fortran fortran' : Bool} {qs : List (Vec3 ℝ)} {d d' : ℕ → ℕ → ℕ → ℂ} (hok : L.dynPolArbitrary w buf fortran qs = .ok d)
    (hok' : L.opposite.dynPolArbitrary w buf' fortran' qs = .ok d') (r : ℕ) (hr : r < w.size) (iq : ℕ) (hq : iq < qs.length) (i j : ℕ) (om : ℝ)
    (hi : L.omegas[i]? = some om) (hj : L.omegas[j]? = some (-om)) : d' r iq i = star (d r iq j) := by
  have g := (C45_rows L w buf fortran hd hn r hr).2 qs
  have g' := (C45_rows L.opposite w buf' fortran' hd hn r hr).2 qs
  rw [hok] at g
  rw [hok'] at g'
  obtain ⟨t, ht, g⟩ := map_eq_ok g.symm
  obtain ⟨t', ht', g'⟩ := map_eq_ok g'.symm
  have f : _ = d r iq j := congrFun (congrFun g iq) j
  have f' : _ = d' r iq i := congrFun (congrFun g' iq) i
  obtain ⟨B, s, s', hB, hs, hs', hv⟩ := arb_states qs t ht iq _ (List.getElem?_eq_getElem hq)
  obtain ⟨B', u, u', hB', hu, hu', hv'⟩ := arb_states qs t' ht' iq _ (List.getElem?_eq_getElem hq)
  obtain rfl : B = B' := Option.some.inj (hB.symm.trans hB')
  obtain rfl : s = u := Except.ok.inj (hs.symm.trans hu)
  obtain rfl : s' = u' := Except.ok.inj (hs'.symm.trans hu')
  rw [← f, ← f', hv j _ hj, hv' i _ hi]
  have e : lindhardSum L.opposite L.opposite.numKpt s s' qs[iq] om = star (lindhardSum L L.numKpt s s' qs[iq] (-om)) := holes_sum h hz hs hs' _ om
  rw [e]
  simp only [star_mul', star_div₀, star_pow, Complex.star_def, Complex.conj_ofReal, Complex.conj_natCast]
  rfl

/-- C146: on the mesh, a model with as many holes responds to a wave as the model with electrons responds to the opposite one, at every frequency. -/
theorem C146_dyn_regular (h : TwoKinds L.D c) (hz : ZheevSpec L.D) (hd : L.dim = 2 ∨ L.dim = 3) {w : World} (hn : w.size ≤ L.numKpt)
    {buf buf' : ℕ → Buf} {fortran fortran' : Bool} {qs : List Grid} {d d' : ℕ → ℕ → ℕ → ℂ}
    (hok : L.dynPolRegular w buf fortran (qs.map fun q => (-q.1, -q.2.1, -q.2.2)) = .ok d)
    (hok' : L.opposite.dynPolRegular w buf' fortran' qs = .ok d') (r : ℕ) (hr : r < w.size) (iq : ℕ) (hq : iq < qs.length) (iw : ℕ)
    (hw : iw < L.omegas.length) : d' r iq iw = d r iq iw := by
  have g := (C45_rows L w buf fortran hd hn r hr).1 (qs.map fun q => (-q.1, -q.2.1, -q.2.2))
  have g' := (C45_rows L.opposite w buf' fortran' hd hn r hr).1 qs
  rw [hok, List.length_map] at g
  rw [hok'] at g'
  obtain ⟨t, ht, g⟩ := map_eq_ok g.symm
  obtain ⟨t', ht', g'⟩ := map_eq_ok g'.symm
  have f : _ = d r iq iw := congrFun (congrFun g iq) iw
  have f' : _ = d' r iq iw := congrFun (congrFun g' iq) iw
  obtain ⟨B, s, s2, hB, hs, hk, hv⟩ := reg_value L _ t ht iq (negGrid qs[iq]) (by rw [List.getElem?_map, List.getElem?_eq_getElem hq]; rfl)
  obtain ⟨B', u, s1, hB', hu, hk', hv'⟩ := reg_value L.opposite qs t' ht' iq _ (List.getElem?_eq_getElem hq)
  obtain rfl : B = B' := Option.some.inj (hB.symm.trans hB')
  obtain rfl : s = u := Except.ok.inj (hs.symm.trans hu)
  obtain ⟨v, hv1, hv2⟩ := statesKq_ok L qs[iq] s hs
  have hkv : ∀ i < L.numKpt, v.1 i = s.1 (kqIx L qs[iq] i) ∧ v.2 i = s.2 (kqIx L qs[iq] i) := hv2
  have hom := List.getElem?_eq_getElem hw
  rw [← f, ← f', hv iw _ hom, hv' iw _ hom]
  have e1 : lindhardSum L.opposite L.opposite.numKpt s s1 (frac2cartRow B 0 (L.opposite.grid2frac qs[iq])) L.omegas[iw] =
      lindhardSum L.opposite L.numKpt s v (frac2cartRow B 0 (L.grid2frac qs[iq])) L.omegas[iw] := by
    unfold lindhardSum
    refine Finset.sum_congr rfl fun k hk => ?_
    have hk : k < L.numKpt := Finset.mem_range.1 hk
    rw [(hkv k hk).1, (hkv k hk).2, (hk' k hk).1, (hk' k hk).2]
    rfl
  have e2 := holes_sum h hz hs hv1 (frac2cartRow B 0 (L.grid2frac qs[iq])) L.omegas[iw]
  have e3 := lind_conj L qs[iq] s v s2 (frac2cartRow B 0 (L.grid2frac qs[iq])) (-L.omegas[iw]) hkv hk
  rw [neg_neg] at e3
  rw [e1, e2, ← e3, grid_neg]
  rfl

end Polarization

section Conductivity

variable {L : Lind} {c : ℕ → Bool}

theorem kinds_vel {hops : List (Cell × Pair × ℂ)} (hh : ∀ t ∈ hops, ∀ a b : ℕ, t.2.1 = ((a : ℤ), (b : ℤ)) → c a ≠ c b) (A : Mat3 ℝ)
    (pos : ℤ → Vec3 ℝ) (K : Vec3 ℝ) (x : Fin 3) (a b : ℕ) (hab : c a = c b) : velocity A pos [] hops K x a b = 0 := by
  rw [← velMat_eq, velMat_apply]
  unfold acHops
  rw [List.map_map]
  refine List.sum_eq_zero fun y hy => ?_
  obtain ⟨t, ht, rfl⟩ := List.mem_map.1 hy
  simp only [Function.comp, velTerm]
  rw [if_neg fun e => hh t ht a b e hab, if_neg fun e => hh t ht b a e hab.symm, add_zero]

theorem kinds_el {N : ℕ} {V : IMat} (hV : ∀ a b : ℕ, c a = c b → V a b = 0) (s : (ℕ → ℕ → ℝ) × Arr3 ℂ) (k l j : ℕ) :
    matEl N V ((flipRows c s).2 k l) ((flipRows c s).2 k j) = -matEl N V (s.2 k l) (s.2 k j) := by
  unfold matEl
  rw [← Finset.sum_neg_distrib]
  refine Finset.sum_congr rfl fun a _ => ?_
  rw [← Finset.sum_neg_distrib]
  refine Finset.sum_congr rfl fun b _ => ?_
  show star (kindSgn c a * s.2 k l a) * V a b * (kindSgn c b * s.2 k j b) = _
  by_cases hc : c a = c b
  · rw [hV a b hc]; ring
  · rw [kind_ne hc, star_mul', kind_star]
    linear_combination -(star (s.2 k l a) * V a b * s.2 k j b) * kind_sq (c := c) a

theorem holes_kubo (h : TwoKinds L.D c) (hz : ZheevSpec L.D) {hops : List (Cell × Pair × ℂ)}
    (hh : ∀ t ∈ hops, ∀ a b : ℕ, t.2.1 = ((a : ℤ), (b : ℤ)) → c a ≠ c b) (pos : ℤ → Vec3 ℝ) (x y : Fin 3) {P : ℕ → Vec3 ℝ} {s : (ℕ → ℕ → ℝ) × Arr3 ℂ}
    (hs : statesSpec L.D L.numKpt P 1 = .ok s) (kc : ℕ → Vec3 ℝ) (om : ℝ) :
    kuboSum L.opposite pos [] hops (x, y) s kc om = kuboSum L pos [] hops (y, x) s kc om := by
  unfold kuboSum
  refine Finset.sum_congr rfl fun k hk => ?_
  have hk : k < L.numKpt := Finset.mem_range.1 hk
  have h1 : kuboTerm L.opposite pos [] hops (x, y) s kc om k = kuboTerm L.opposite pos [] hops (x, y) (flipRows c s) kc om k := by
    rw [kubo_pairs, kubo_pairs]
    obtain ⟨m, hm, hm1⟩ := eigen_ok _ h.plain _ _ _ (states_rows hs k hk)
    have a : Eigenpairs L.D.nb L.D.nb m (rowOf s k) := hz _ _ hm1
    exact pair_unique _ _ _ a (flip_pairs (h.ham _ _ _ hm) a) a (flip_pairs (h.ham _ _ _ hm) a)
  rw [h1]
  unfold kuboTerm
  rw [Finset.sum_comm]
  refine Finset.sum_congr rfl fun m _ => Finset.sum_congr rfl fun n _ => ?_
  have hV := fun z => kinds_vel hh L.lat pos (kc k) z
  have e1 : matEl L.opposite.D.nb (velocity L.opposite.lat pos [] hops (kc k) x) ((flipRows c s).2 k m) ((flipRows c s).2 k n) =
      -matEl L.D.nb (velocity L.lat pos [] hops (kc k) x) (s.2 k m) (s.2 k n) := kinds_el (hV x) s k m n
  have e2 : matEl L.opposite.D.nb (velocity L.opposite.lat pos [] hops (kc k) y) ((flipRows c s).2 k n) ((flipRows c s).2 k m) =
      -matEl L.D.nb (velocity L.lat pos [] hops (kc k) y) (s.2 k n) (s.2 k m) := kinds_el (hV y) s k n m
  have e3 : (flipRows c s).1 k n - (flipRows c s).1 k m = s.1 k m - s.1 k n := by
    show -s.1 k n - -s.1 k m = _
    ring
  have e4 : 1 / (1 + Real.exp (L.opposite.beta * ((flipRows c s).1 k n - L.opposite.mu))) -
      1 / (1 + Real.exp (L.opposite.beta * ((flipRows c s).1 k m - L.opposite.mu))) =
      1 / (1 + Real.exp (L.beta * (s.1 k m - L.mu))) - 1 / (1 + Real.exp (L.beta * (s.1 k n - L.mu))) := by
    show 1 / (1 + Real.exp (L.beta * (-s.1 k n - -L.mu))) - 1 / (1 + Real.exp (L.beta * (-s.1 k m - -L.mu))) = _
    rw [fermi_holes, fermi_holes]
    ring
  simp only [e1, e2, e3, e4]
  refine if_congr Iff.rfl ?_ rfl
  have e5 : L.opposite.delta = L.delta := rfl
  rw [e5]
  ring

/-- C146: a model with as many holes conducts as well; the components of the conductivity change their order, so that a Hall current is reversed. -/
theorem C146_ac (h : TwoKinds L.D c) (hz : ZheevSpec L.D) {w w' : World} (hn : w.size ≤ L.numKpt) (hn' : w'.size ≤ L.numKpt) {buf buf' : ℕ → Buf}
    {fortran fortran' : Bool} {pos : ℤ → Vec3 ℝ} {hops : List (Cell × Pair × ℂ)}
    (hh : ∀ t ∈ hops, ∀ a b : ℕ, t.2.1 = ((a : ℤ), (b : ℤ)) → c a ≠ c b) {x y : Fin 3} {d d' : ℕ → ℕ → ℂ}
    (hok : L.acCond w buf fortran pos hops (some (y, x)) = .ok d) (hok' : L.opposite.acCond w' buf' fortran' pos hops (some (x, y)) = .ok d')
    (r : ℕ) (hr : r < w.size) (r' : ℕ) (hr' : r' < w'.size) (iw : ℕ) : d' r' iw = d r iw := by
  have g := ac_run L w buf fortran pos [] hops (some (y, x)) hn r hr
  have g' := ac_run L.opposite w' buf' fortran' pos [] hops (some (x, y)) hn' r' hr'
  rw [hok] at g
  rw [hok'] at g'
  replace g := g.symm
  replace g' := g'.symm
  unfold acSpec at g g'
  obtain ⟨km, hkm, g⟩ := ok_split g
  obtain ⟨km', hkm', g'⟩ := ok_split g'
  obtain ⟨_, hcp, g⟩ := ok_split g
  cases hcp
  obtain ⟨_, hcp, g'⟩ := ok_split g'
  cases hcp
  obtain ⟨s, hs, g⟩ := ok_split g
  obtain ⟨s', hs', g'⟩ := ok_split g'
  obtain rfl : km = km' := Except.ok.inj (hkm.symm.trans hkm')
  obtain rfl : s = s' := Except.ok.inj (hs.symm.trans hs')
  have f : _ = d r iw := congrFun (Except.ok.inj g) iw
  have f' : _ = d' r' iw := congrFun (Except.ok.inj g') iw
  rw [← f, ← f']
  have ho : L.opposite.omegas = L.omegas := rfl
  simp only [ho]
  cases L.omegas[iw]? with
  | none => rfl
  | some om =>
    simp only [holes_kubo h hz hh pos x y hs]
    rfl

/-- C146: with as many electrons as holes there is no Hall current: the conductivity is symmetric. -/
theorem C146_neutral (h : TwoKinds L.D c) (hz : ZheevSpec L.D) (hmu : L.mu = 0) {w w' : World} (hn : w.size ≤ L.numKpt) (hn' : w'.size ≤ L.numKpt)
    {buf buf' : ℕ → Buf} {fortran fortran' : Bool} {pos : ℤ → Vec3 ℝ} {hops : List (Cell × Pair × ℂ)}
    (hh : ∀ t ∈ hops, ∀ a b : ℕ, t.2.1 = ((a : ℤ), (b : ℤ)) → c a ≠ c b) {x y : Fin 3} {d d' : ℕ → ℕ → ℂ}
    (hok : L.acCond w buf fortran pos hops (some (x, y)) = .ok d) (hok' : L.acCond w' buf' fortran' pos hops (some (y, x)) = .ok d')
    (r : ℕ) (hr : r < w.size) (r' : ℕ) (hr' : r' < w'.size) (iw : ℕ) : d r iw = d' r' iw := by
  have e : L.opposite = L := by
    cases L
    simp_all [Lind.opposite]
  exact C146_ac h hz hn' hn hh hok' (by rw [e]; exact hok) r' hr' r hr iw

end Conductivity

/-- C146: the models in question are those without on-site energies whose hopping terms join orbitals of different kinds. -/
theorem C146_cell {Λ : Type} {D : Diag} {s : PrimCell ℝ ℂ Λ} {c : ℕ → Bool} (h : SolvesCell D s) (hw : PrimCell.WF s) (hf : PrimCell.ArraysFresh s)
    (he : ∀ o ∈ s.orbs, o.energy = 0) (hh : ∀ (R : Cell) (i j : ℕ), c i = c j → (s.hops.get R i j).getD 0 = 0) : TwoKinds D c :=
  ⟨h.plain, fun k conv m hm i hi j hj hij =>
    C134_cell hw hf c he hh k conv m (h.ham k conv m hm) ⟨i, h.nb ▸ hi⟩ ⟨j, h.nb ▸ hj⟩ hij⟩

section Case

/-- A molecule with a chemical potential above the middle of its levels. -/
noncomputable def dopedCalc : Lind := { pairCalc with mu := 1 }

theorem pair_kinds : TwoKinds dopedCalc.D (fun i => i == 1) := by
  refine ⟨rfl, fun k conv m hm i hi j hj hij => ?_⟩
  obtain rfl := Except.ok.inj hm
  have hi : i < 2 := hi
  have hj : j < 2 := hj
  interval_cases i <;> interval_cases j <;> simp_all

/-- A doped molecule for which the hypotheses of C146 hold; all calculations run to their ends. -/
theorem C146_example (w : World) (hw : w.size = 1) (buf : ℕ → Buf) (fortran : Bool) (Q : Vec3 ℝ) (x y : Fin 3) :
    ∃ p p' d d', dopedCalc.dynPolArbitrary w buf fortran [Q] = .ok p ∧ dopedCalc.opposite.dynPolArbitrary w buf fortran [Q] = .ok p' ∧
      dopedCalc.acCond w buf fortran (fun i => ![i, 0, 0]) pairHops (some (y, x)) = .ok d ∧
      dopedCalc.opposite.acCond w buf fortran (fun i => ![i, 0, 0]) pairHops (some (x, y)) = .ok d' ∧ p' 0 0 0 = star (p 0 0 0) ∧ d' 0 0 = d 0 0 := by
  have hn1 : dopedCalc.numKpt = 1 := by
    show (buildKmeshGrid (1, 1, 1)).length = 1
    decide
  have hdet : dopedCalc.lat.det ≠ 0 := by simp [dopedCalc, pairCalc]
  have hE : ∀ k conv, ∃ q, eigen dopedCalc.D k conv = .ok q := fun k c => ⟨_, pairSolver_eigen 1 k c⟩
  obtain ⟨⟨p, hp⟩, d, hd⟩ := calc_runs (L := dopedCalc) hE hdet (Or.inr rfl) w (by omega) buf fortran [Q] (fun i => ![(i : ℝ), 0, 0]) pairHops (y, x)
  obtain ⟨⟨p', hp'⟩, d', hd'⟩ := calc_runs (L := dopedCalc.opposite) hE hdet (Or.inr rfl) w (hw.trans hn1.symm).le buf fortran [Q]
    (fun i => ![(i : ℝ), 0, 0]) pairHops (x, y)
  refine ⟨p, p', d, d', hp, hp', hd, hd', ?_, ?_⟩
  · exact C146_dyn_arbitrary (L := dopedCalc) pair_kinds (pair_zheev 1) (Or.inr rfl) (by omega) hp hp' 0 w.pos 0 (by simp) 0 0 0 rfl
      (by rw [neg_zero]; rfl)
  · refine C146_ac (L := dopedCalc) pair_kinds (pair_zheev 1) (by omega) (by omega) (fun t ht a b e => ?_) hd hd' 0 w.pos 0 w.pos 0
    obtain rfl : t = ((0, 0, 0), (0, 1), 1) := by simpa [pairHops] using ht
    obtain ⟨e1, e2⟩ := Prod.mk.inj e
    obtain rfl : a = 0 := by omega
    obtain rfl : b = 1 := by omega
    decide

end Case

end Verif.Props

import Verif.Spec.CellChoice
import Verif.Proof.EnergyZero
import Verif.Props.EnergyZero
import Verif.Props.ExtendSpectrum

/-! # States of an extended cell made of states of the cell -/

namespace Verif

open PrimCell Props

section Fold

variable {d : Cell}

/-- Waves with different folded wave vectors are orthogonal. -/
theorem box_orth (hd : 1 ≤ d.1 ∧ 1 ≤ d.2.1 ∧ 1 ≤ d.2.2) {m m' : Cell} (hb : InBox d m) (hb' : InBox d m') :
    ∑ I ∈ boxSet d, eiPhase (2 * Real.pi * ∑ x, ((cellAt m' x : ℝ) - cellAt m x) / cellAt d x * cellAt I x) =
      if m = m' then ((d.1 * d.2.1 * d.2.2 : ℤ) : ℂ) else 0 := by
  have hdx : ∀ x, (cellAt d x : ℝ) ≠ 0 := by
    intro x
    have : cellAt d x ≠ 0 := by fin_cases x <;> simp [cellAt] <;> omega
    exact_mod_cast this
  by_cases hm : m = m'
  · subst hm
    rw [if_pos rfl]
    have hc := card_boxSet d hd
    simp only [sub_self, zero_div, zero_mul, Finset.sum_const_zero, mul_zero, eiPhase_zero, Finset.sum_const, nsmul_eq_mul, mul_one]
    rw [← hc]
    push_cast
    rfl
  · rw [if_neg hm]
    have hne : ∃ x, cellAt m x ≠ cellAt m' x := by
      by_contra hcon
      push Not at hcon
      exact hm (Prod.ext (hcon 0) (Prod.ext (hcon 1) (hcon 2)))
    obtain ⟨x, hx⟩ := hne
    refine wave_sum_zero (boxLat d) (boxSet d) (box_rep hd) (fun x => ((cellAt m' x : ℝ) - cellAt m x) / cellAt d x) ?_ (if x = 0 then 1 else 0, if x = 1 then 1 else 0, if x = 2 then 1 else 0) ?_
    · rintro c ⟨⟨z0, e0⟩, ⟨z1, e1⟩, ⟨z2, e2⟩⟩
      refine ⟨(cellAt m' 0 - cellAt m 0) * z0 + (cellAt m' 1 - cellAt m 1) * z1 + (cellAt m' 2 - cellAt m 2) * z2, ?_⟩
      have g0 := hdx 0
      have g1 := hdx 1
      have g2 := hdx 2
      have f0 : cellAt c 0 = cellAt d 0 * z0 := e0
      have f1 : cellAt c 1 = cellAt d 1 * z1 := e1
      have f2 : cellAt c 2 = cellAt d 2 * z2 := e2
      rw [Fin.sum_univ_three, f0, f1, f2]
      push_cast
      field_simp
    · intro z hz
      have hdp : 0 < cellAt d x := by fin_cases x <;> simp [cellAt] <;> omega
      have hrange : |cellAt m' x - cellAt m x| < cellAt d x := by
        rw [abs_lt]
        obtain ⟨⟨u1, u2⟩, ⟨u3, u4⟩, ⟨u5, u6⟩⟩ := hb
        obtain ⟨⟨v1, v2⟩, ⟨v3, v4⟩, ⟨v5, v6⟩⟩ := hb'
        fin_cases x <;> simp [cellAt] <;> omega
      have hval : ((cellAt m' x : ℝ) - cellAt m x) / cellAt d x = z := by
        rw [← hz]
        fin_cases x <;> simp [Fin.sum_univ_three, cellAt]
      rw [div_eq_iff (hdx x)] at hval
      have hval' : cellAt m' x - cellAt m x = z * cellAt d x := by exact_mod_cast hval
      rw [hval', abs_mul, abs_of_pos hdp] at hrange
      have hz0 : z = 0 := by
        by_contra hz0
        have := Int.one_le_abs hz0
        nlinarith
      rw [hz0, zero_mul, sub_eq_zero] at hval'
      exact hx hval'.symm

/-- Number of image `I` of orbital `i`. -/
def idx (d : Cell) (n : ℕ) (I : Cell) (i : ℕ) : ℕ := (extIdx d n I i).toNat

open Classical in
/-- Image and orbital of a number. -/
noncomputable def dec (d : Cell) (n a : ℕ) : Cell × ℕ :=
  if h : ∃ p : Cell × ℕ, InBox d p.1 ∧ p.2 < n ∧ a = idx d n p.1 p.2 then h.choose else (0, 0)

theorem dec_idx {n : ℕ} {I : Cell} {i : ℕ} (hI : InBox d I) (hi : i < n) : dec d n (idx d n I i) = (I, i) := by
  have h : ∃ p : Cell × ℕ, InBox d p.1 ∧ p.2 < n ∧ idx d n I i = idx d n p.1 p.2 := ⟨(I, i), hI, hi, rfl⟩
  have hs := h.choose_spec
  rw [dec, dif_pos h]
  set p := h.choose
  have r1 := extIdx_range hI (i := (i : ℤ)) (n := n) ⟨by omega, by omega⟩
  have r2 := extIdx_range hs.1 (i := (p.2 : ℤ)) (n := n) ⟨by omega, by have := hs.2.1; omega⟩
  have e : extIdx d n I i = extIdx d n p.1 p.2 := by
    have := hs.2.2
    unfold idx at this
    omega
  obtain ⟨e1, e2⟩ := extIdx_inj hI hs.1 ⟨by omega, by omega⟩ ⟨by omega, by have := hs.2.1; omega⟩ e
  exact Prod.ext e1.symm (by simp only; omega)

theorem idx_lt {n N : ℕ} (hN : (N : ℤ) = d.1 * d.2.1 * d.2.2 * n) {I : Cell} {i : ℕ} (hI : InBox d I) (hi : i < n) : idx d n I i < N := by
  have := extIdx_range hI (i := (i : ℤ)) (n := n) ⟨by omega, by omega⟩
  unfold idx
  omega

theorem idx_surj (hd : 1 ≤ d.1 ∧ 1 ≤ d.2.1 ∧ 1 ≤ d.2.2) {n N : ℕ} (hN : (N : ℤ) = d.1 * d.2.1 * d.2.2 * n) {a : ℕ} (ha : a < N) :
    ∃ I i, InBox d I ∧ i < n ∧ a = idx d n I i := by
  obtain ⟨I, i, hI, hi, e⟩ := extIdx_surj (d := d) (n := n) (a := a) (by omega) (by omega) hd (by omega)
  refine ⟨I, i.toNat, hI, by omega, ?_⟩
  unfold idx
  rw [Int.toNat_of_nonneg hi.1, ← e]
  simp

/-- The states of the extended cell made of the states `q m` of the cell at the folded wave vectors `m`, with phases `ph m I i`. -/
noncomputable def foldStates (d : Cell) (n : ℕ) (ph : Cell → Cell → ℕ → ℂ) (q : Cell → (ℕ → ℝ) × (ℕ → ℕ → ℂ)) : (ℕ → ℝ) × (ℕ → ℕ → ℂ) :=
  (fun J => (q (dec d n J).1).1 (dec d n J).2, fun a J => ((Real.sqrt ((d.1 * d.2.1 * d.2.2 : ℤ) : ℝ) : ℝ) : ℂ)⁻¹ *
    (ph (dec d n J).1 (dec d n a).1 (dec d n a).2 * (q (dec d n J).1).2 (dec d n a).2 (dec d n J).2))

variable {n N : ℕ} (hd : 1 ≤ d.1 ∧ 1 ≤ d.2.1 ∧ 1 ≤ d.2.2) (hN : (N : ℤ) = d.1 * d.2.1 * d.2.2 * n)

include hd in
theorem sqrt_norm : ((Real.sqrt ((d.1 * d.2.1 * d.2.2 : ℤ) : ℝ) : ℝ) : ℂ)⁻¹ * ((Real.sqrt ((d.1 * d.2.1 * d.2.2 : ℤ) : ℝ) : ℝ) : ℂ)⁻¹ *
    ((d.1 * d.2.1 * d.2.2 : ℤ) : ℂ) = 1 := by
  have hpos : (0 : ℝ) < ((d.1 * d.2.1 * d.2.2 : ℤ) : ℝ) := by
    have : 0 < d.1 * d.2.1 * d.2.2 := by
      have h1 := hd.1; have h2 := hd.2.1; have h3 := hd.2.2
      positivity
    exact_mod_cast this
  set D : ℝ := ((d.1 * d.2.1 * d.2.2 : ℤ) : ℝ) with hD
  have e : (((d.1 * d.2.1 * d.2.2 : ℤ) : ℂ)) = ((Real.sqrt D : ℝ) : ℂ) * ((Real.sqrt D : ℝ) : ℂ) := by
    rw [← Complex.ofReal_mul, Real.mul_self_sqrt hpos.le, hD]
    push_cast
    rfl
  have hne : ((Real.sqrt D : ℝ) : ℂ) ≠ 0 := by
    rw [Complex.ofReal_ne_zero]
    exact (Real.sqrt_pos.2 hpos).ne'
  rw [e]
  field_simp

include hd hN in
/-- Overlaps between states of extended cells, with a phase factor in between. -/
theorem fold_overlap {ph ph' : Cell → Cell → ℕ → ℂ} {q u : Cell → (ℕ → ℝ) × (ℕ → ℕ → ℂ)} {g g' : ℕ → ℂ}
    (hg : ∀ m m', InBox d m → InBox d m' → ∀ i < n, ∑ I ∈ boxSet d, star (ph' m' I i) * ph m I i * g' (idx d n I i) =
      if m = m' then ((d.1 * d.2.1 * d.2.2 : ℤ) : ℂ) * g i else 0)
    {m m' : Cell} (hm : InBox d m) (hm' : InBox d m') {j l : ℕ} (hj : j < n) (hl : l < n) :
    ∑ a ∈ Finset.range N, star ((foldStates d n ph' u).2 a (idx d n m' l)) * (foldStates d n ph q).2 a (idx d n m j) * g' a =
      if m = m' then ∑ i ∈ Finset.range n, star ((u m').2 i l) * (q m).2 i j * g i else 0 := by
  rw [sum_ext hd n _ N hN, Finset.sum_comm]
  set c := ((Real.sqrt ((d.1 * d.2.1 * d.2.2 : ℤ) : ℝ) : ℝ) : ℂ)⁻¹ with hc
  have hcs : star c = c := by rw [hc, star_inv₀, Complex.star_def, Complex.conj_ofReal]
  have h1 : ∀ i ∈ Finset.range n, ∑ I ∈ boxSet d, star ((foldStates d n ph' u).2 (extIdx d n I i).toNat (idx d n m' l)) *
      (foldStates d n ph q).2 (extIdx d n I i).toNat (idx d n m j) * g' (extIdx d n I i).toNat =
      if m = m' then star ((u m').2 i l) * (q m).2 i j * g i else 0 := by
    intro i hi
    have hi := Finset.mem_range.1 hi
    have h2 : ∀ I ∈ boxSet d, star ((foldStates d n ph' u).2 (extIdx d n I i).toNat (idx d n m' l)) *
        (foldStates d n ph q).2 (extIdx d n I i).toNat (idx d n m j) * g' (extIdx d n I i).toNat =
        c * c * (star ((u m').2 i l) * (q m).2 i j) * (star (ph' m' I i) * ph m I i * g' (idx d n I i)) := by
      intro I hI
      have hI := (mem_boxSet _ _).1 hI
      have e := dec_idx (d := d) hI hi
      unfold foldStates
      rw [show (extIdx d n I i).toNat = idx d n I i from rfl]
      simp only [dec_idx hm hj, dec_idx hm' hl, e, ← hc, star_mul', hcs]
      ring
    rw [Finset.sum_congr rfl h2, ← Finset.mul_sum, hg m m' hm hm' i hi]
    split_ifs with he
    · have := sqrt_norm hd
      rw [← hc] at this
      linear_combination (star ((u m').2 i l) * (q m).2 i j * g i) * this
    · rw [mul_zero]
  rw [Finset.sum_congr rfl h1]
  split_ifs with he
  · rfl
  · simp

include hd hN in
/-- If the eigenvectors of the matrices `M m` unfold to eigenvectors of `M'` and the phases are orthogonal, then `foldStates` are the
orthonormal eigenvectors of `M'`. -/
theorem fold_pairs {ph : Cell → Cell → ℕ → ℂ} {q : Cell → (ℕ → ℝ) × (ℕ → ℕ → ℂ)} {M : Cell → IMat} {M' : IMat}
    (hph : ∀ m m', InBox d m → InBox d m' → ∀ i < n, ∑ I ∈ boxSet d, star (ph m' I i) * ph m I i =
      if m = m' then ((d.1 * d.2.1 * d.2.2 : ℤ) : ℂ) else 0)
    (hM : ∀ m, InBox d m → ∀ (v : ℕ → ℂ) (μ : ℂ), (∀ i < n, ∑ j ∈ Finset.range n, M m i j * v j = μ * v i) → ∀ w : ℕ → ℂ,
      (∀ I, InBox d I → ∀ i < n, w (idx d n I i) = ph m I i * v i) → ∀ a < N, ∑ b ∈ Finset.range N, M' a b * w b = μ * w a)
    (hq : ∀ m, InBox d m → Eigenpairs n n (M m) (q m)) : Eigenpairs N N M' (foldStates d n ph q) := by
  refine ⟨fun J hJ a ha => ?_, fun J hJ J' hJ' => ?_⟩
  · obtain ⟨m, j, hm, hj, rfl⟩ := idx_surj hd hN hJ
    set c := ((Real.sqrt ((d.1 * d.2.1 * d.2.2 : ℤ) : ℝ) : ℝ) : ℂ)⁻¹ with hc
    have := hM m hm (fun i => c * (q m).2 i j) ((q m).1 j) (by
      intro i hi
      have := (hq m hm).eigen j hj i hi
      calc ∑ x ∈ Finset.range n, M m i x * (c * (q m).2 x j) = c * ∑ x ∈ Finset.range n, M m i x * (q m).2 x j := by
            rw [Finset.mul_sum]; exact Finset.sum_congr rfl fun x _ => by ring
        _ = _ := by rw [this]; ring) (fun b => (foldStates d n ph q).2 b (idx d n m j)) (by
      intro I hI i hi
      unfold foldStates
      simp only [dec_idx hm hj, dec_idx hI hi, ← hc]
      ring) a ha
    rw [this]
    unfold foldStates
    simp only [dec_idx hm hj]
  · obtain ⟨m, j, hm, hj, rfl⟩ := idx_surj hd hN hJ
    obtain ⟨m', j', hm', hj', rfl⟩ := idx_surj hd hN hJ'
    have := fold_overlap hd hN (ph := ph) (ph' := ph) (q := q) (u := q) (g := fun _ => 1) (g' := fun _ => 1) (by
      intro m m' hm hm' i hi
      simp only [mul_one]
      exact hph m m' hm hm' i hi) hm' hm hj' hj
    simp only [mul_one] at this
    rw [this]
    by_cases h : m' = m
    · subst h
      rw [if_pos rfl, (hq m' hm').orthonormal j hj j' hj']
      by_cases hjj : j = j'
      · subst hjj; simp
      · rw [if_neg hjj, if_neg]
        intro e
        have := congrArg (dec d n) e
        rw [dec_idx hm hj, dec_idx hm hj'] at this
        exact hjj (Prod.ext_iff.1 this).2
    · rw [if_neg h, if_neg]
      intro e
      have := congrArg (dec d n) e
      rw [dec_idx hm hj, dec_idx hm' hj'] at this
      exact h (Prod.ext_iff.1 this).1.symm

end Fold

section Mesh

theorem sum_range_blocks {A : Type*} [AddCommMonoid A] (d M : ℕ) (f : ℕ → A) :
    ∑ a ∈ Finset.range (d * M), f a = ∑ m ∈ Finset.range d, ∑ a ∈ Finset.range M, f (m * M + a) := by
  induction d with
  | zero => simp
  | succ d ih => rw [Nat.succ_mul, Finset.sum_range_add, ih, Finset.sum_range_succ]

theorem box_sum {A : Type*} [AddCommMonoid A] (x y z : ℕ) (F : Cell → A) :
    ∑ m ∈ boxSet ((x : ℤ), (y : ℤ), (z : ℤ)), F m =
      ∑ a ∈ Finset.range x, ∑ b ∈ Finset.range y, ∑ c ∈ Finset.range z, F ((a : ℤ), (b : ℤ), (c : ℤ)) := by
  have h1 : ∀ (n : ℕ) (G : ℤ → A), ∑ a ∈ Finset.Ico (0 : ℤ) n, G a = ∑ a ∈ Finset.range n, G a := by
    intro n G
    refine (Finset.sum_bij (fun (a : ℕ) _ => (a : ℤ)) ?_ ?_ ?_ ?_).symm
    · intro a ha; have := Finset.mem_range.1 ha; rw [Finset.mem_Ico]; omega
    · intro a _ b _ h; exact_mod_cast h
    · intro b hb
      have := Finset.mem_Ico.1 hb
      exact ⟨b.toNat, Finset.mem_range.2 (by omega), by omega⟩
    · intro a _; rfl
  unfold boxSet
  rw [Finset.sum_product, h1]
  refine Finset.sum_congr rfl fun a _ => ?_
  rw [Finset.sum_product, h1]
  exact Finset.sum_congr rfl fun b _ => h1 _ _

theorem list_flatMap_sum {A B : Type*} [AddCommMonoid A] (n : ℕ) (f : ℕ → List B) (g : B → A) :
    (((List.range n).flatMap f).map g).sum = ∑ a ∈ Finset.range n, ((f a).map g).sum := by
  induction n with
  | zero => simp
  | succ n ih => simp [List.range_succ, ih, Finset.sum_range_succ]

theorem list_getD_sum {A B : Type*} [AddCommMonoid A] (l : List B) (g : B → A) (x : B) :
    ∑ i ∈ Finset.range l.length, g (l.getD i x) = (l.map g).sum := by
  induction l with
  | nil => simp
  | cons a l ih =>
    rw [List.length_cons, Finset.sum_range_succ', List.map_cons, List.sum_cons, ← ih, add_comm]
    simp

theorem list_range_sum {A : Type*} [AddCommMonoid A] (n : ℕ) (f : ℕ → A) : ((List.range n).map f).sum = ∑ i ∈ Finset.range n, f i := by
  induction n with
  | zero => simp
  | succ n ih => simp [List.range_succ, ih, Finset.sum_range_succ]

/-- Sums over the mesh. -/
theorem mesh_sum {A : Type*} [AddCommMonoid A] (L : Lind) (g : Vec3 ℝ → A) :
    ∑ i ∈ Finset.range L.numKpt, g (L.kFrac i) = ∑ a ∈ Finset.range L.mesh.1, ∑ b ∈ Finset.range L.mesh.2.1,
      ∑ c ∈ Finset.range L.mesh.2.2, g ![(a : ℝ) / L.mesh.1, (b : ℝ) / L.mesh.2.1, (c : ℝ) / L.mesh.2.2] := by
  have h1 : ∑ i ∈ Finset.range L.numKpt, g (L.kFrac i) = ((buildKmeshGrid L.mesh).map fun x => g (L.grid2frac x)).sum := by
    exact list_getD_sum (buildKmeshGrid L.mesh) (fun x => g (L.grid2frac x)) (0, 0, 0)
  rw [h1, buildKmeshGrid, list_flatMap_sum]
  refine Finset.sum_congr rfl fun a _ => ?_
  rw [list_flatMap_sum]
  refine Finset.sum_congr rfl fun b _ => ?_
  rw [List.map_map, list_range_sum]
  refine Finset.sum_congr rfl fun c _ => ?_
  simp [Lind.grid2frac]

/-- The points of the mesh of a cell are those of the extended cell, unfolded. -/
theorem mesh_fold {A : Type*} [AddCommMonoid A] {L L' : Lind} {d : Cell} (hd : 1 ≤ d.1 ∧ 1 ≤ d.2.1 ∧ 1 ≤ d.2.2)
    (hm' : 0 < L'.mesh.1 ∧ 0 < L'.mesh.2.1 ∧ 0 < L'.mesh.2.2)
    (hm : (L.mesh.1 : ℤ) = d.1 * L'.mesh.1 ∧ (L.mesh.2.1 : ℤ) = d.2.1 * L'.mesh.2.1 ∧ (L.mesh.2.2 : ℤ) = d.2.2 * L'.mesh.2.2) (g : Vec3 ℝ → A) :
    ∑ i ∈ Finset.range L.numKpt, g (L.kFrac i) =
      ∑ i ∈ Finset.range L'.numKpt, ∑ m ∈ boxSet d, g (fun x => (L'.kFrac i x + cellAt m x) / cellAt d x) := by
  obtain ⟨dx, dy, dz⟩ := d
  simp only at hd hm
  lift dx to ℕ using by omega
  lift dy to ℕ using by omega
  lift dz to ℕ using by omega
  obtain ⟨e1, e2, e3⟩ := hm
  have e1 : L.mesh.1 = dx * L'.mesh.1 := by exact_mod_cast e1
  have e2 : L.mesh.2.1 = dy * L'.mesh.2.1 := by exact_mod_cast e2
  have e3 : L.mesh.2.2 = dz * L'.mesh.2.2 := by exact_mod_cast e3
  rw [mesh_sum L, mesh_sum L' (fun k => ∑ m ∈ boxSet ((dx : ℤ), (dy : ℤ), (dz : ℤ)), g (fun x => (k x + cellAt m x) / cellAt ((dx : ℤ), (dy : ℤ), (dz : ℤ)) x)),
    e1, e2, e3]
  simp only [box_sum, sum_range_blocks]
  have hx : (L'.mesh.1 : ℝ) ≠ 0 := by exact_mod_cast hm'.1.ne'
  have hy : (L'.mesh.2.1 : ℝ) ≠ 0 := by exact_mod_cast hm'.2.1.ne'
  have hz : (L'.mesh.2.2 : ℝ) ≠ 0 := by exact_mod_cast hm'.2.2.ne'
  have kx : (dx : ℝ) ≠ 0 := by have := hd.1; norm_cast; omega
  have ky : (dy : ℝ) ≠ 0 := by have := hd.2.1; norm_cast; omega
  have kz : (dz : ℝ) ≠ 0 := by have := hd.2.2; norm_cast; omega
  have hp : ∀ a b c a' b' c' : ℕ, (![((a * L'.mesh.1 + a' : ℕ) : ℝ) / ((dx * L'.mesh.1 : ℕ) : ℝ), ((b * L'.mesh.2.1 + b' : ℕ) : ℝ) / ((dy * L'.mesh.2.1 : ℕ) : ℝ),
      ((c * L'.mesh.2.2 + c' : ℕ) : ℝ) / ((dz * L'.mesh.2.2 : ℕ) : ℝ)] : Vec3 ℝ) = fun x => ((![(a' : ℝ) / L'.mesh.1, (b' : ℝ) / L'.mesh.2.1, (c' : ℝ) / L'.mesh.2.2] : Vec3 ℝ) x +
        cellAt ((a : ℤ), (b : ℤ), (c : ℤ)) x) / cellAt ((dx : ℤ), (dy : ℤ), (dz : ℤ)) x := by
    intro a b c a' b' c'
    funext x
    fin_cases x <;> simp [cellAt] <;> field_simp <;> ring
  simp only [hp]
  rw [Finset.sum_comm]
  refine Finset.sum_congr rfl fun a' _ => ?_
  have : ∀ a : ℕ, ∀ F : ℕ → ℕ → ℕ → ℕ → A, ∑ b ∈ Finset.range dy, ∑ b' ∈ Finset.range L'.mesh.2.1, ∑ c ∈ Finset.range dz, ∑ c' ∈ Finset.range L'.mesh.2.2, F b b' c c' =
      ∑ b' ∈ Finset.range L'.mesh.2.1, ∑ c' ∈ Finset.range L'.mesh.2.2, ∑ b ∈ Finset.range dy, ∑ c ∈ Finset.range dz, F b b' c c' := by
    intro a F
    rw [Finset.sum_comm]
    refine Finset.sum_congr rfl fun b' _ => ?_
    rw [Finset.sum_comm]
    conv_rhs => rw [Finset.sum_comm]
    rw [Finset.sum_comm]
    refine Finset.sum_congr rfl fun b _ => ?_
    rw [Finset.sum_comm]
  rw [Finset.sum_congr rfl fun a _ => this a _, Finset.sum_comm]
  refine Finset.sum_congr rfl fun b' _ => ?_
  rw [Finset.sum_comm]

/-- Every unfolded point is a point of the mesh. -/
theorem mesh_point {L L' : Lind} {d : Cell} (hd : 1 ≤ d.1 ∧ 1 ≤ d.2.1 ∧ 1 ≤ d.2.2)
    (hm' : 0 < L'.mesh.1 ∧ 0 < L'.mesh.2.1 ∧ 0 < L'.mesh.2.2)
    (hm : (L.mesh.1 : ℤ) = d.1 * L'.mesh.1 ∧ (L.mesh.2.1 : ℤ) = d.2.1 * L'.mesh.2.1 ∧ (L.mesh.2.2 : ℤ) = d.2.2 * L'.mesh.2.2)
    (i : ℕ) (hi : i < L'.numKpt) (m : Cell) (hb : InBox d m) : ∃ x < L.numKpt, L.kFrac x = fun x => (L'.kFrac i x + cellAt m x) / cellAt d x := by
  classical
  by_contra hcon
  push Not at hcon
  have h1 := mesh_fold hd hm' hm (fun y => if y = (fun x => (L'.kFrac i x + cellAt m x) / cellAt d x) then (1 : ℕ) else 0)
  rw [Finset.sum_eq_zero fun x hx => if_neg (hcon x (Finset.mem_range.1 hx))] at h1
  have h2 := Finset.sum_eq_zero_iff.1 h1.symm i (Finset.mem_range.2 hi)
  have h3 := Finset.sum_eq_zero_iff.1 h2 m ((mem_boxSet _ _).2 hb)
  simp at h3

end Mesh

section States

variable {Λ : Type} {d : Cell}

/-- Position of an orbital of the cell, zero for other numbers. -/
def orbFrac (s : PrimCell ℝ ℂ Λ) (i : ℕ) : Vec3 ℝ := s.orbs[i]?.elim 0 Orbital.position

/-- Phases of the folded states. -/
noncomputable def extPhase (s : PrimCell ℝ ℂ Λ) (conv : ℤ) (d : Cell) (k : Vec3 ℝ) (m I : Cell) (i : ℕ) : ℂ :=
  eiPhase (2 * Real.pi * foldPhase conv d (fun x => (k x + cellAt m x) / cellAt d x) (cellAt m) I (orbFrac s i))

theorem extPhase_orth (hd : 1 ≤ d.1 ∧ 1 ≤ d.2.1 ∧ 1 ≤ d.2.2) (s : PrimCell ℝ ℂ Λ) (conv : ℤ) (k : Vec3 ℝ) {m m' : Cell} (hm : InBox d m)
    (hm' : InBox d m') (i : ℕ) : ∑ I ∈ boxSet d, star (extPhase s conv d k m' I i) * extPhase s conv d k m I i =
      if m = m' then ((d.1 * d.2.1 * d.2.2 : ℤ) : ℂ) else 0 := by
  have hterm : ∀ I, star (extPhase s conv d k m' I i) * extPhase s conv d k m I i =
      eiPhase (2 * Real.pi * (if conv = 1 then ∑ x, ((cellAt m x : ℝ) - cellAt m' x) / cellAt d x * orbFrac s i x else 0)) *
        eiPhase (2 * Real.pi * ∑ x, ((cellAt m x : ℝ) - cellAt m' x) / cellAt d x * cellAt I x) := by
    intro I
    unfold extPhase
    rw [← eiPhase_neg, ← eiPhase_add, ← eiPhase_add]
    congr 1
    unfold foldPhase
    split_ifs
    · simp only [Fin.sum_univ_three]
      ring
    · simp only [Fin.sum_univ_three]
      ring
  simp only [hterm]
  rw [← Finset.mul_sum, box_orth hd hm' hm]
  by_cases h : m = m'
  · subst h
    simp [eiPhase_zero]
  · rw [if_neg h, if_neg (Ne.symm h), mul_zero]

/-- The states of the extended cell are, up to the choice of eigenvectors, the unfolded states of the cell. -/
theorem fold_eigen (H : HashFns ℝ ℂ Λ) (lat : Mat3 ℝ) (o : Vec3 ℝ) (cs : List (Call ℝ ℂ Λ))
    (hr : InRange H (init H lat o) cs) (hf : ArraysFresh (run H (init H lat o) cs)) (ext : ℝ) (hd : 1 ≤ d.1 ∧ 1 ≤ d.2.1 ∧ 1 ≤ d.2.2) (t : PCObj ℝ ℂ Λ)
    (ht : extendPrimCell H ⟨run H (init H lat o) cs, ext⟩ [d.1, d.2.1, d.2.2] = .ok t) (hft : ArraysFresh (syncArray H t.cell))
    {D D' : Diag} (hD : SolvesCell D (run H (init H lat o) cs)) (hD' : SolvesCell D' (syncArray H t.cell)) (hz : ZheevSpec D) (hz' : ZheevSpec D')
    {k : Vec3 ℝ} {conv : ℤ} {q' : (ℕ → ℝ) × (ℕ → ℕ → ℂ)} {q : Cell → (ℕ → ℝ) × (ℕ → ℕ → ℂ)} (hq' : eigen D' k conv = .ok q')
    (hq : ∀ m, InBox d m → eigen D (fun x => (k x + cellAt m x) / cellAt d x) conv = .ok (q m)) :
    (D'.nb : ℤ) = d.1 * d.2.1 * d.2.2 * D.nb ∧ ∃ M', Eigenpairs D'.nb D'.nb M' q' ∧
      Eigenpairs D'.nb D'.nb M' (foldStates d D.nb (extPhase (run H (init H lat o) cs) conv d k) q) := by
  obtain ⟨t1, h1, -, -, -, h5, -⟩ := C33_extend H lat o cs hr ext d hd [d.1, d.2.1, d.2.2] (Or.inl rfl)
  rw [h1] at ht
  obtain rfl := Except.ok.inj ht
  have hN' : (syncArray H t1.cell).numOrb = t1.cell.numOrb := by rw [numOrb, syncArray_numOrb]; rfl
  have hN : (D'.nb : ℤ) = d.1 * d.2.1 * d.2.2 * D.nb := by rw [hD'.nb, hD.nb, hN', h5]
  obtain ⟨M', hM', hzm'⟩ := eigen_ok D' hD'.plain _ _ q' hq'
  have hex : ∀ m, ∃ M, InBox d m → D.setHam (fun x => (k x + cellAt m x) / cellAt d x) conv (fun _ _ => 0) = .ok M ∧ D.zheev M = some (q m) := by
    intro m
    by_cases hm : InBox d m
    · obtain ⟨M, g⟩ := eigen_ok D hD.plain _ _ (q m) (hq m hm)
      exact ⟨M, fun _ => g⟩
    · exact ⟨fun _ _ => 0, fun h => absurd h hm⟩
  choose M hM using hex
  refine ⟨hN, M', hz' _ _ hzm', fold_pairs hd hN (M := M) (fun m m' hm hm' i _ => extPhase_orth hd _ conv k hm hm' i) ?_
    fun m hm => hz _ _ (hM m hm).2⟩
  intro m hm v μ hv w hw a ha
  have := C34_folding H lat o cs hr hf ext d hd t1 h1 hft k (cellAt m) conv (M m) M' (hD.ham _ _ _ (hM m hm).1) (hD'.ham _ _ _ hM') v μ
    (by rw [← hD.nb]; exact hv) w (by
      intro I i ob hI hob
      have hi : i < D.nb := by rw [hD.nb]; exact (List.getElem?_eq_some_iff.1 hob).1
      have := hw I hI i hi
      rw [idx, hD.nb] at this
      rw [this, extPhase, orbFrac, hob, eiPhase_eq_exp]
      simp)
  have h2 := this.1
  rw [← hN', ← hD'.nb] at h2
  exact h2 a ha

/-- Sums over pairs of states of the extended cell. -/
theorem pair_fold {n N : ℕ} (hd : 1 ≤ d.1 ∧ 1 ≤ d.2.1 ∧ 1 ≤ d.2.2) (hN : (N : ℤ) = d.1 * d.2.1 * d.2.2 * n) (F : ℝ → ℝ → ℂ)
    {A' B' : ℕ → ℕ → ℂ} {A B : Cell → ℕ → ℕ → ℂ} {ph ph' : Cell → Cell → ℕ → ℂ} {q u : Cell → (ℕ → ℝ) × (ℕ → ℕ → ℂ)}
    (hA : ∀ m m', InBox d m → InBox d m' → ∀ j < n, ∀ l < n, bracket N A' (foldStates d n ph' u) (foldStates d n ph q) (idx d n m' l) (idx d n m j) =
      if m = m' then bracket n (A m) (u m) (q m) l j else 0)
    (hB : ∀ m, InBox d m → ∀ j < n, ∀ l < n, bracket N B' (foldStates d n ph q) (foldStates d n ph' u) (idx d n m j) (idx d n m l) =
      bracket n (B m) (q m) (u m) j l) :
    pairSum N F A' B' (foldStates d n ph q) (foldStates d n ph' u) = ∑ m ∈ boxSet d, pairSum n F (A m) (B m) (q m) (u m) := by
  unfold pairSum
  rw [sum_ext hd n _ N hN]
  refine Finset.sum_congr rfl fun m hm => Finset.sum_congr rfl fun j hj => ?_
  have hm := (mem_boxSet _ _).1 hm
  have hj := Finset.mem_range.1 hj
  rw [sum_ext hd n _ N hN, Finset.sum_eq_single m]
  · refine Finset.sum_congr rfl fun l hl => ?_
    have hl := Finset.mem_range.1 hl
    rw [show (extIdx d n m j).toNat = idx d n m j from rfl, show (extIdx d n m l).toNat = idx d n m l from rfl,
      hA m m hm hm j hj l hl, if_pos rfl, hB m hm j hj l hl]
    unfold foldStates
    simp only [dec_idx hm hj, dec_idx hm hl]
  · intro m' hm' hne
    have hm' := (mem_boxSet _ _).1 hm'
    refine Finset.sum_eq_zero fun l hl => ?_
    have hl := Finset.mem_range.1 hl
    rw [show (extIdx d n m j).toNat = idx d n m j from rfl, show (extIdx d n m' l).toNat = idx d n m' l from rfl,
      hA m m' hm hm' j hj l hl, if_neg (Ne.symm hne)]
    ring
  · intro h
    exact absurd ((mem_boxSet _ _).2 hm) h

/-- The operator `exp(i q·r)` between folded states. -/
theorem wave_fold {n N : ℕ} (hd : 1 ≤ d.1 ∧ 1 ≤ d.2.1 ∧ 1 ≤ d.2.2) (hN : (N : ℤ) = d.1 * d.2.1 * d.2.2 * n) (F : ℝ → ℝ → ℂ) (s : PrimCell ℝ ℂ Λ)
    {pos pos' : ℕ → Vec3 ℝ} {lat : Mat3 ℝ} (hpos : ∀ I, InBox d I → ∀ i < n, ∀ y, pos' (idx d n I i) y = pos i y + ∑ x, (cellAt I x : ℝ) * lat x y)
    {Q f k k' : Vec3 ℝ} (hQ : ∀ x, ∑ y, lat x y * Q y = 2 * Real.pi * f x) (hk : ∀ x, k' x = k x + cellAt d x * f x)
    {q u : Cell → (ℕ → ℝ) × (ℕ → ℕ → ℂ)} :
    pairSum N F (waveOp Q pos') (fun a b => star (waveOp Q pos' a b)) (foldStates d n (extPhase s 2 d k) q) (foldStates d n (extPhase s 2 d k') u) =
      ∑ m ∈ boxSet d, pairSum n F (waveOp Q pos) (fun a b => star (waveOp Q pos a b)) (q m) (u m) := by
  have hdx : ∀ x, (cellAt d x : ℝ) ≠ 0 := by
    intro x
    have : cellAt d x ≠ 0 := by fin_cases x <;> simp [cellAt] <;> omega
    exact_mod_cast this
  have hw : ∀ (N : ℕ) (P : ℕ → Vec3 ℝ) (v w : (ℕ → ℝ) × (ℕ → ℕ → ℂ)) (l j : ℕ), bracket N (waveOp Q P) v w l j =
      ∑ a ∈ Finset.range N, star (v.2 a l) * w.2 a j * eiPhase (∑ x, Q x * P a x) := by
    intro N P v w l j
    unfold bracket waveOp
    refine Finset.sum_congr rfl fun a ha => ?_
    rw [Finset.sum_eq_single a]
    · rw [if_pos rfl, eiPhase_eq_exp, mul_comm Complex.I]; ring
    · intro b _ hb
      rw [if_neg (Ne.symm hb)]; ring
    · intro h0; exact absurd ha h0
  have hs : ∀ (N : ℕ) (P : ℕ → Vec3 ℝ) (v w : (ℕ → ℝ) × (ℕ → ℕ → ℂ)) (l j : ℕ), bracket N (fun a b => star (waveOp Q P a b)) w v j l =
      star (bracket N (waveOp Q P) v w l j) := by
    intro N P v w l j
    unfold bracket waveOp
    rw [star_sum]
    refine Finset.sum_congr rfl fun a ha => ?_
    rw [Finset.sum_eq_single a, Finset.sum_eq_single a]
    · simp only [if_true, star_mul', star_star]; ring
    · intro b _ hb
      rw [if_neg (Ne.symm hb)]; ring
    · intro h0; exact absurd ha h0
    · intro b _ hb
      simp only [if_neg (Ne.symm hb), star_zero]; ring
    · intro h0; exact absurd ha h0
  have key : ∀ m m', InBox d m → InBox d m' → ∀ j < n, ∀ l < n,
      bracket N (waveOp Q pos') (foldStates d n (extPhase s 2 d k') u) (foldStates d n (extPhase s 2 d k) q) (idx d n m' l) (idx d n m j) =
        if m = m' then bracket n (waveOp Q pos) (u m) (q m) l j else 0 := by
    intro m m' hm hm' j hj l hl
    rw [hw, hw, fold_overlap hd hN (g := fun i => eiPhase (∑ x, Q x * pos i x)) (g' := fun a => eiPhase (∑ x, Q x * pos' a x)) ?_ hm hm' hj hl]
    · by_cases h : m = m'
      · subst h; rfl
      · rw [if_neg h, if_neg h]
    · intro m m' hm hm' i hi
      have hterm : ∀ I ∈ boxSet d, star (extPhase s 2 d k' m' I i) * extPhase s 2 d k m I i * eiPhase (∑ x, Q x * pos' (idx d n I i) x) =
          eiPhase (∑ x, Q x * pos i x) * eiPhase (2 * Real.pi * ∑ x, ((cellAt m x : ℝ) - cellAt m' x) / cellAt d x * cellAt I x) := by
        intro I hI
        have hI := (mem_boxSet _ _).1 hI
        unfold extPhase foldPhase
        rw [← eiPhase_neg, ← eiPhase_add, ← eiPhase_add, ← eiPhase_add]
        congr 1
        have e1 : ∑ x, Q x * pos' (idx d n I i) x = (∑ x, Q x * pos i x) + ∑ x, (cellAt I x : ℝ) * (2 * Real.pi * f x) := by
          simp only [hpos I hI i hi, ← hQ, Fin.sum_univ_three]
          ring
        rw [e1]
        simp only [show ¬ ((2 : ℤ) = 1) by norm_num, if_false, hk, Fin.sum_univ_three]
        have g0 := hdx 0
        have g1 := hdx 1
        have g2 := hdx 2
        field_simp
        ring
      rw [Finset.sum_congr rfl hterm, ← Finset.mul_sum, box_orth hd hm' hm]
      by_cases h : m = m'
      · subst h; simp [mul_comm]
      · rw [if_neg h, if_neg (Ne.symm h), mul_zero]
  refine pair_fold hd hN F (A := fun _ => waveOp Q pos) (B := fun _ => fun a b => star (waveOp Q pos a b)) key ?_
  intro m hm j hj l hl
  rw [hs, hs, key m m hm hm j hj l hl, if_pos rfl]

end States

end Verif

import Verif.Proof.Cube
import Verif.Props.Bloch

/-!
# C114: cube files of wave functions
-/

namespace Verif.Props

open AtomSpec CubeSpec Cube

theorem posRn_eq (lat : Mat3 ℝ) (p : Vec3 ℝ) (R : Fin 3 → ℤ) (x : Fin 3) : posRn lat p R x = p x + translation lat R x := by
  simp [posRn, translation, Matrix.vecMul, dotProduct]

theorem translation_smul (a : ℝ) (lat : Mat3 ℝ) (R : Fin 3 → ℤ) (x : Fin 3) : translation (a • lat) R x = a * translation lat R x := by
  rw [translation, translation, Finset.mul_sum]
  refine Finset.sum_congr rfl fun c _ => ?_
  simp
  ring

theorem kindPart_eq (kind : String) (w : ℂ) : kindPart kind w = shown kind w := by
  rw [kindPart, shown, Complex.normSq_eq_norm_sq]

/-- The argument of the phase factor of orbital `b` in cell `R`: with the position of the orbital in convention 1, without it otherwise. -/
noncomputable def cubePhase {n : ℕ} (conv : ℤ) (k : Vec3 ℝ) (tau : Fin n → Vec3 ℝ) (b : Fin n) (R : Fin 3 → ℤ) : ℝ :=
  if conv = 1 then ∑ c, k c * ((R c : ℝ) + tau b c) else ∑ c, k c * (R c : ℝ)

/-- **C114** With a range of cells given, `plot_wfc3d` succeeds for every model with a regular lattice and writes, in the order of a cube file
(last index fastest), the real part, imaginary part or square of the Bloch wave built from the hydrogen-like orbitals of C113, the coefficients,
and phases according to the convention, at the points `origin + resolution * (i, j, k)`.  The number of points along an axis is the size divided
by the resolution, rounded down.  Missing from the full claim: points within `1e-7` bohr of an atom (`C113_nucleus`), and the call without a
range (`C114_default`). -/
theorem C114_cube_partial : ∃ ψ : Atom.Qn → ℝ → ℝ → ℝ → ℝ, IsOrbitals ψ ∧
    ∀ (n : ℕ) (pos tau : Fin n → Vec3 ℝ) (lat : Mat3 ℝ), lat.det ≠ 0 → (∀ b, Matrix.vecMul (tau b) lat = pos b) →
    ∀ (a : Args) (q : Fin n → Atom.Qn) (c : Fin n → ℂ), a.qns = List.ofFn q → a.wfc = List.ofFn c → (∀ b, Valid (q b)) →
    ∀ (m : Fin 3 → ℤ), a.rnMax = some m → ∀ (o s : Vec3 ℝ), OriginIs pos a.origin o → SizeIs pos a.size s → 0 < a.res → (∀ x, 0 ≤ s x) →
    ∃ f, plotWfc3d (List.ofFn pos) lat a = .ok f ∧ (∀ x, f.grid x = ⌊s x / a.res⌋₊) ∧ (∀ x, f.origin x = o x / bohr2nm) ∧
      f.res = a.res / bohr2nm ∧ f.data.length = f.grid 0 * (f.grid 1 * f.grid 2) ∧
      ∀ i j l, i < f.grid 0 → j < f.grid 1 → l < f.grid 2 →
        let r : Vec3 ℝ := fun x => o x + a.res * ![(i : ℝ), j, l] x
        (∀ b, ∀ R ∈ box m, 1.0e-7 ≤ rad (away bohr2nm lat (pos b) r R 0) (away bohr2nm lat (pos b) r R 1) (away bohr2nm lat (pos b) r R 2)) →
        f.data[(i * f.grid 1 + j) * f.grid 2 + l]? =
          some (shown a.kind (wave ψ bohr2nm lat pos q c (cubePhase a.conv (a.kPoint.getD 0) tau) m r)) := by
  refine ⟨orb, orb_isOrbitals, ?_⟩
  intro n pos tau lat hlat htau a q c hq hc hv m hm o s ho hs hres hsize
  refine ⟨_, plot_eq pos tau lat hlat htau a q c hq hc m hm o s (boxOrigin_eq pos _ o ho) (boxSize_eq pos _ s hs) hres hsize,
    fun x => rfl, fun x => ?_, rfl, grid_length _ _ _ _, ?_⟩
  · simp [div_eq_inv_mul]
  · intro i j l hi hj hl r hfar
    rw [grid_get _ _ _ _ i j l hi hj hl, kindPart_eq]
    congr 2
    unfold wave
    refine Finset.sum_congr rfl fun b _ => ?_
    rw [blochState_eq]
    congr 2
    refine Finset.sum_congr rfl fun R hR => ?_
    have hp : blochPhase a.conv (a.kPoint.getD 0) (tau b) R = Complex.exp (2 * Real.pi * Complex.I * (cubePhase a.conv (a.kPoint.getD 0) tau b R : ℝ)) := by
      unfold blochPhase cubePhase
      split_ifs <;> · dsimp only; congr 1; push_cast; ring
    rw [hp]
    congr 2
    have hb := bohr_pos.ne'
    have haway : ∀ (x : Fin 3) (t : ℕ), ![(i : ℝ), j, l] x = t →
        (bohr2nm⁻¹ • o : Vec3 ℝ) x + a.res / bohr2nm * t - posRn (bohr2nm⁻¹ • lat) (bohr2nm⁻¹ • pos b) R x = away bohr2nm lat (pos b) r R x := by
      intro x t ht
      rw [posRn_eq, translation_smul, away]
      simp only [r, ht, Pi.smul_apply, smul_eq_mul]
      field_simp
    rw [setCube_eq, if_pos ⟨hi, hj, hl⟩]
    have h0 := haway 0 i rfl
    have h1 := haway 1 j rfl
    have h2 := haway 2 l rfl
    rw [gridval_orb (hv b), h0, h1, h2]
    rw [h0, h1, h2]
    exact hfar b R hR

/-- **C114, the default range of cells**: a call without `rn_max` always fails, because the default is an array of floats. -/
theorem C114_default (orbPos : List (Vec3 ℝ)) (lat : Mat3 ℝ) (a : Args) (h : a.rnMax = none) : plotWfc3d orbPos lat a = .error .type := by
  simp [plotWfc3d, h, bind, Except.bind]

/-- **C114, the atoms**: the file lists every position `r_b + R` once, with the charge of an orbital at that position, and gives their number. -/
theorem C114_atoms {n : ℕ} (pos tau : Fin n → Vec3 ℝ) (lat : Mat3 ℝ) (hlat : lat.det ≠ 0) (htau : ∀ b, Matrix.vecMul (tau b) lat = pos b)
    (a : Args) (q : Fin n → Atom.Qn) (c : Fin n → ℂ) (hq : a.qns = List.ofFn q) (hc : a.wfc = List.ofFn c)
    (m : Fin 3 → ℤ) (hm : a.rnMax = some m) (o s : Vec3 ℝ) (ho : OriginIs pos a.origin o)
    (hs : SizeIs pos a.size s) (hres : 0 < a.res) (hsize : ∀ x, 0 ≤ s x) :
    ∃ f, plotWfc3d (List.ofFn pos) lat a = .ok f ∧ f.natoms = f.atoms.length ∧ (f.atoms.map Prod.snd).Nodup ∧
      (∀ p, p ∈ f.atoms.map Prod.snd ↔ ∃ b, ∃ R ∈ box m, p = fun x => (pos b x + translation lat R x) / bohr2nm) ∧
      ∀ z p, (z, p) ∈ f.atoms → ∃ b, ∃ R ∈ box m, (p = fun x => (pos b x + translation lat R x) / bohr2nm) ∧ z = (q b).z := by
  classical
  have hmem : ∀ x : Vec3 ℝ × Atom.Qn, x ∈ ((List.ofFn pos).map fun p => (bohr2nm⁻¹ • p : Vec3 ℝ)).zip a.qns ↔ ∃ b, x = (bohr2nm⁻¹ • pos b, q b) := by
    intro x
    have : ((List.ofFn pos).map fun p => (bohr2nm⁻¹ • p : Vec3 ℝ)).zip a.qns = List.ofFn fun b => ((bohr2nm⁻¹ • pos b : Vec3 ℝ), q b) := by
      rw [hq]
      refine List.ext_getElem (by simp) fun i h1 h2 => ?_
      simp
    rw [this, List.mem_ofFn]
    simp only [Set.mem_range, eq_comm]
  have hpos : ∀ (b : Fin n) (R : Fin 3 → ℤ), posRn (bohr2nm⁻¹ • lat) (bohr2nm⁻¹ • pos b) R = fun x => (pos b x + translation lat R x) / bohr2nm := by
    intro b R
    funext x
    rw [posRn_eq, translation_smul]
    simp only [Pi.smul_apply, smul_eq_mul]
    ring
  obtain ⟨h1, h2, h3⟩ := atomPos_spec (bohr2nm⁻¹ • lat) (rnFrac m) (((List.ofFn pos).map fun p => (bohr2nm⁻¹ • p : Vec3 ℝ)).zip a.qns)
  have hk : (List.map (fun p : Vec3 ℝ × ℤ => (p.2, p.1)) (atomPos (bohr2nm⁻¹ • lat) (rnFrac m)
      (((List.ofFn pos).map fun p => (bohr2nm⁻¹ • p : Vec3 ℝ)).zip a.qns))).map Prod.snd = (atomPos (bohr2nm⁻¹ • lat) (rnFrac m)
      (((List.ofFn pos).map fun p => (bohr2nm⁻¹ • p : Vec3 ℝ)).zip a.qns)).keys := by
    rw [List.map_map]
    rfl
  refine ⟨_, plot_eq pos tau lat hlat htau a q c hq hc m hm o s (boxOrigin_eq pos _ o ho) (boxSize_eq pos _ s hs) hres hsize, ?_, ?_, ?_, ?_⟩
  · simp
  · dsimp only
    rw [hk]
    exact h1
  · intro p
    dsimp only
    rw [hk, h2]
    constructor
    · rintro ⟨x, hx, R, hR, rfl⟩
      obtain ⟨b, rfl⟩ := (hmem x).1 hx
      exact ⟨b, R, (rnFrac_mem m R).1 hR, hpos b R⟩
    · rintro ⟨b, R, hR, rfl⟩
      exact ⟨_, (hmem _).2 ⟨b, rfl⟩, R, (rnFrac_mem m R).2 hR, (hpos b R).symm⟩
  · intro z p hzp
    dsimp only at hzp
    obtain ⟨⟨p', z'⟩, hin, heq⟩ := List.mem_map.1 hzp
    obtain ⟨rfl, rfl⟩ : z' = z ∧ p' = p := by simpa using heq
    obtain ⟨x, hx, R, hR, e1, e2⟩ := h3 p' z' ((PyDict.mem_iff_get? h1 p' z').1 hin)
    obtain ⟨b, rfl⟩ := (hmem x).1 hx
    exact ⟨b, R, (rnFrac_mem m R).1 hR, e1.trans (hpos b R), e2⟩

/-- Coefficients in convention 1 and 2 of the same wave. -/
theorem blochState_conv (k : Vec3 ℝ) (lat : Mat3 ℝ) (m : Fin 3 → ℤ) (o : Vec3 ℝ) (grid : Fin 3 → ℕ) (res : ℝ) (pos tau : Vec3 ℝ) (q : Atom.Qn) (x y z : ℕ) :
    blochState 1 k lat (rnFrac m) o grid res pos tau q x y z =
      Complex.exp (2 * Real.pi * Complex.I * ((∑ c, k c * tau c : ℝ) : ℂ)) * blochState 2 k lat (rnFrac m) o grid res pos tau q x y z := by
  rw [blochState_eq, blochState_eq, mul_div_assoc', Finset.mul_sum]
  congr 1
  refine Finset.sum_congr rfl fun R _ => ?_
  rw [← mul_assoc]
  congr 1
  unfold blochPhase
  rw [if_pos rfl, if_neg (by decide), ← Complex.exp_add]
  congr 1
  simp only [mul_add, Finset.sum_add_distrib]
  push_cast
  ring_nf

/-- **C114, conventions**: an eigenstate of the Hamiltonian at `k` in convention 1, multiplied by the phases of the orbitals, is an eigenstate in
convention 2 with the same energy.  The two calls with the respective convention write the same file when squares are plotted; for a cell with
origin zero they write the same file for every kind. -/
theorem C114_conventions {n : ℕ} (frac : ℤ → Vec3 ℝ) (eng : List ℝ) (hops : List (Cell × Pair × ℂ)) (k : Vec3 ℝ) (E : ℂ) (c : Fin n → ℂ)
    (heig : (toMatrix n (setHam frac eng hops 1 k IMat.zero)).mulVec c = E • c)
    (lat : Mat3 ℝ) (hlat : lat.det ≠ 0) (orig : Vec3 ℝ) (a : Args) (q : Fin n → Atom.Qn) (hq : a.qns = List.ofFn q) (hk : a.kPoint = some k)
    (m : Fin 3 → ℤ) (hm : a.rnMax = some m) (o s : Vec3 ℝ) (ho : a.origin = some o) (hs : a.size = some s) (hres : 0 < a.res) (hsize : ∀ x, 0 ≤ s x)
    (hkind : orig = 0 ∨ a.kind = "abs2") :
    (toMatrix n (setHam frac eng hops 2 k IMat.zero)).mulVec ((phaseMatrix n frac k).mulVec c) = E • (phaseMatrix n frac k).mulVec c ∧
    plotWfc3d (List.ofFn fun b : Fin n => frac2cartRow lat orig (frac b)) lat { a with conv := 1, wfc := List.ofFn c } =
      plotWfc3d (List.ofFn fun b : Fin n => frac2cartRow lat orig (frac b)) lat { a with conv := 2, wfc := List.ofFn ((phaseMatrix n frac k).mulVec c) } := by
  obtain ⟨hU, hH, _⟩ := C10_conventions_same_spectrum frac eng hops k n
  constructor
  · have h1 : phaseMatrix n frac k * (phaseMatrix n frac k).conjTranspose = 1 := Matrix.mem_unitaryGroup_iff.1 hU
    have h2 : toMatrix n (setHam frac eng hops 2 k IMat.zero) * phaseMatrix n frac k =
        phaseMatrix n frac k * toMatrix n (setHam frac eng hops 1 k IMat.zero) := by
      rw [hH, ← Matrix.mul_assoc, ← Matrix.mul_assoc, h1, Matrix.one_mul]
    rw [Matrix.mulVec_mulVec, h2, ← Matrix.mulVec_mulVec, heig, Matrix.mulVec_smul]
  · have hdet : IsUnit lat.transpose.det := by rw [Matrix.det_transpose]; exact isUnit_iff_ne_zero.2 hlat
    have htau : ∀ b : Fin n, Matrix.vecMul (frac b + (lat.transpose)⁻¹.mulVec orig) lat = frac2cartRow lat orig (frac b) := by
      intro b
      rw [Matrix.add_vecMul, frac2cartRow, ← Matrix.mulVec_transpose, ← Matrix.mulVec_transpose, Matrix.mulVec_mulVec,
        Matrix.mul_nonsing_inv _ hdet, Matrix.one_mulVec]
    rw [plot_eq _ (fun b : Fin n => frac b + (lat.transpose)⁻¹.mulVec orig) lat hlat htau { a with conv := 1, wfc := List.ofFn c } q c hq rfl m hm o s
        (by simp [ho, boxOrigin]) (by simp [hs, boxSize]) hres hsize,
      plot_eq _ (fun b : Fin n => frac b + (lat.transpose)⁻¹.mulVec orig) lat hlat htau { a with conv := 2, wfc := List.ofFn ((phaseMatrix n frac k).mulVec c) } q _ hq rfl m hm o s
        (by simp [ho, boxOrigin]) (by simp [hs, boxSize]) hres hsize]
    simp only [hk, Option.getD_some]
    congr 2
    refine List.flatMap_congr fun x _ => List.flatMap_congr fun y _ => List.map_congr_left fun z _ => ?_
    set w := ∑ c, k c * (lat.transpose)⁻¹.mulVec orig c with hw
    have hsum : (∑ b : Fin n, c b * blochState 1 k (bohr2nm⁻¹ • lat) (rnFrac m) (bohr2nm⁻¹ • o) (fun x => ⌊s x / a.res⌋₊) (a.res / bohr2nm)
        (bohr2nm⁻¹ • frac2cartRow lat orig (frac b)) (frac b + (lat.transpose)⁻¹.mulVec orig) (q b) x y z) =
        Complex.exp (2 * Real.pi * Complex.I * (w : ℂ)) * ∑ b : Fin n, (phaseMatrix n frac k).mulVec c b *
          blochState 2 k (bohr2nm⁻¹ • lat) (rnFrac m) (bohr2nm⁻¹ • o) (fun x => ⌊s x / a.res⌋₊) (a.res / bohr2nm)
          (bohr2nm⁻¹ • frac2cartRow lat orig (frac b)) (frac b + (lat.transpose)⁻¹.mulVec orig) (q b) x y z := by
      rw [Finset.mul_sum]
      refine Finset.sum_congr rfl fun b _ => ?_
      rw [blochState_conv, phaseMatrix, Matrix.mulVec_diagonal]
      have : (∑ x, k x * (frac b + (lat.transpose)⁻¹.mulVec orig) x) = (∑ x, k x * frac b x) + w := by
        rw [hw, ← Finset.sum_add_distrib]
        exact Finset.sum_congr rfl fun x _ => by simp [mul_add]
      rw [this]
      push_cast
      rw [mul_add, Complex.exp_add]
      ring
    rw [hsum]
    rcases hkind with h0 | h0
    · have : w = 0 := by
        rw [hw, h0, Matrix.mulVec_zero]
        simp
      rw [this]
      simp
    · rw [h0]
      simp only [kindPart, if_neg (show ¬ ("abs2" = "real") by decide), if_neg (show ¬ ("abs2" = "imag") by decide), norm_mul]
      have : ‖Complex.exp (2 * Real.pi * Complex.I * (w : ℂ))‖ = 1 := by
        rw [show (2 * Real.pi * Complex.I * (w : ℂ)) = ((2 * Real.pi * w : ℝ) : ℂ) * Complex.I by push_cast; ring]
        exact Complex.norm_exp_ofReal_mul_I _
      rw [this, one_mul]

/-- The hypotheses can be met: one carbon atom at the centre of a cube of one nanometre, the `p_z` orbital, cells from -1 to 1 along `x`. -/
example : ∃ f, plotWfc3d (List.ofFn fun _ : Fin 1 => (0 : Vec3 ℝ)) 1
    { wfc := List.ofFn fun _ : Fin 1 => 1, qns := List.ofFn fun _ : Fin 1 => ⟨6, 2, 1, 0⟩, rnMax := some ![1, 0, 0], origin := some fun _ => -0.5,
      size := some fun _ => 1 } = .ok f ∧ f.natoms = f.atoms.length := by
  obtain ⟨f, h1, h2, _⟩ := C114_atoms (n := 1) (fun _ => 0) (fun _ => 0) (1 : Mat3 ℝ) (by simp) (by simp)
    { wfc := List.ofFn fun _ : Fin 1 => 1, qns := List.ofFn fun _ : Fin 1 => ⟨6, 2, 1, 0⟩, rnMax := some ![1, 0, 0], origin := some fun _ => -0.5,
      size := some fun _ => 1 } (fun _ => ⟨6, 2, 1, 0⟩) (fun _ => 1) rfl rfl ![1, 0, 0] rfl (fun _ => -0.5) (fun _ => 1) (Or.inl rfl) (Or.inl rfl)
    (by norm_num) (by intro _; norm_num)
  exact ⟨f, h1, h2⟩

/-- The file of the same call has `200 * 200 * 200` points, and its first number is the real part of the wave at the corner. -/
example : ∃ ψ, IsOrbitals ψ ∧ ∃ f, plotWfc3d (List.ofFn fun _ : Fin 1 => (0 : Vec3 ℝ)) 1
    { wfc := List.ofFn fun _ : Fin 1 => 1, qns := List.ofFn fun _ : Fin 1 => ⟨6, 2, 1, 0⟩, rnMax := some ![1, 0, 0], origin := some fun _ => -0.5,
      size := some fun _ => 1 } = .ok f ∧ f.grid 1 = 200 ∧
      f.data[0]? = some (wave ψ bohr2nm 1 (fun _ : Fin 1 => 0) (fun _ => ⟨6, 2, 1, 0⟩) (fun _ => 1) (cubePhase 1 0 fun _ => 0) ![1, 0, 0] fun _ => -0.5).re := by
  obtain ⟨ψ, h0, h⟩ := C114_cube_partial
  obtain ⟨f, h1, h2, _, _, _, h3⟩ := h 1 (fun _ => 0) (fun _ => 0) (1 : Mat3 ℝ) (by simp) (by simp)
    { wfc := List.ofFn fun _ : Fin 1 => 1, qns := List.ofFn fun _ : Fin 1 => ⟨6, 2, 1, 0⟩, rnMax := some ![1, 0, 0], origin := some fun _ => -0.5,
      size := some fun _ => 1 } (fun _ => ⟨6, 2, 1, 0⟩) (fun _ => 1) rfl rfl (fun _ => ⟨by decide, by decide, by decide, by decide, by decide⟩) ![1, 0, 0] rfl (fun _ => -0.5) (fun _ => 1)
    (Or.inl rfl) (Or.inl rfl) (by norm_num) (by intro _; norm_num)
  have hg : ∀ x, f.grid x = 200 := by
    intro x
    rw [h2]
    norm_num
  refine ⟨ψ, h0, f, h1, hg 1, ?_⟩
  have h4 := h3 0 0 0 (by rw [hg]; decide) (by rw [hg]; decide) (by rw [hg]; decide) ?_
  · have h5 : (fun x : Fin 3 => (-0.5 : ℝ) + 0.005 * ![((0 : ℕ) : ℝ), ((0 : ℕ) : ℝ), ((0 : ℕ) : ℝ)] x) = fun _ => -0.5 := by
      funext x
      fin_cases x <;> simp
    simp only [h5] at h4
    simpa [shown] using h4
  · intro b R hR
    have hR1 : R 1 = 0 := by
      have := Fintype.mem_piFinset.1 hR 1
      simpa using this
    have hy : away bohr2nm 1 0 (fun x => -0.5 + 0.005 * ![((0 : ℕ) : ℝ), ((0 : ℕ) : ℝ), ((0 : ℕ) : ℝ)] x) R 1 = -0.5 / bohr2nm := by
      simp [away, translation, Fin.sum_univ_three, hR1]
    unfold rad
    refine Real.le_sqrt_of_sq_le ?_
    have h5 : (1.0e-7 : ℝ) ^ 2 ≤ (-0.5 / bohr2nm) ^ 2 := by
      unfold bohr2nm
      norm_num
    rw [← hy] at h5
    refine h5.trans ?_
    nlinarith [sq_nonneg (away bohr2nm 1 (0 : Vec3 ℝ) (fun x => -0.5 + 0.005 * ![((0 : ℕ) : ℝ), ((0 : ℕ) : ℝ), ((0 : ℕ) : ℝ)] x) R 0),
      sq_nonneg (away bohr2nm 1 (0 : Vec3 ℝ) (fun x => -0.5 + 0.005 * ![((0 : ℕ) : ℝ), ((0 : ℕ) : ℝ), ((0 : ℕ) : ℝ)] x) R 2)]

end Verif.Props

import Verif.Proof.LindhardAC
import Verif.Props.Lindhard

/-! # AC conductivity: C50, C76, C77 -/

namespace Verif.Props

/-- C50: the matrix `velMat` of the kernel is the derivative of the convention-1 Bloch Hamiltonian along the Cartesian
axis `c`, and it is Hermitian. -/
theorem C50_velocity (lat : Mat3 ℝ) (pos : ℤ → Vec3 ℝ) (eng : List ℝ) (hops : List (Cell × Pair × ℂ)) (k : Vec3 ℝ)
    (c : Fin 3) (a b : ℤ) :
    HasDerivAt (fun t : ℝ => hamCart lat pos eng hops (k + t • (Pi.single c 1 : Vec3 ℝ)) a b)
      (velMat (acHops lat pos hops) k c a b) 0 ∧
    star (velMat (acHops lat pos hops) k c b a) = velMat (acHops lat pos hops) k c a b :=
  ⟨vel_hasDeriv lat pos eng hops k c a b, velMat_star _ k c a b⟩

/-- The chain with hopping 1 to the next cell has velocity `-2 sin k`. -/
example (k : Vec3 ℝ) : velMat (acHops 1 (fun _ => 0) [((1, 0, 0), (0, 0), 1)]) k 0 0 0 = ((-2 * Real.sin (k 0) : ℝ) : ℂ) := by
  rw [velMat_apply]
  simp [acHops, velTerm, hopDrNm, frac2cartRow, eiPhase, Matrix.mulVec, dotProduct, Fin.sum_univ_three]
  rw [← Complex.ofReal_cos, ← Complex.ofReal_sin, Complex.conj_ofReal, Complex.conj_ofReal]
  linear_combination (2 * ((Real.sin (k 0) : ℝ) : ℂ)) * Complex.I_sq

/-- C77: the Cartesian wave vectors handed to the kernel belong to the fractional k-points at which the states are
evaluated. -/
theorem C77_mesh (L : Lind) (km : List (Vec3 ℝ)) (h : L.frac2cart ((buildKmeshGrid L.mesh).map L.grid2frac) = .ok km) :
    km.length = L.numKpt ∧ ∀ i < L.numKpt, ∀ j, dotProduct (L.lat j) (km.getD i 0) / (2 * Real.pi) = L.kFrac i j := by
  by_cases hdet : L.lat.det = 0
  · simp [Lind.frac2cart, genReciprocal, hdet] at h
  have hp : (2 * Real.pi) ≠ 0 := by positivity
  simp only [Lind.frac2cart, recip_some _ hdet, Except.ok.injEq] at h
  subst h
  refine ⟨by simp [frac2cart, Lind.numKpt], fun i hi j => ?_⟩
  have hi' : i < (buildKmeshGrid L.mesh).length := hi
  simp only [frac2cart, Lind.kFrac, List.getD_eq_getElem?_getD, List.getElem?_map, List.getElem?_eq_getElem hi',
    Option.map_some, Option.getD_some]
  generalize L.grid2frac _ = f
  have hm : ∀ x, (L.lat * L.lat⁻¹) j x = (1 : Mat3 ℝ) j x := fun x => by rw [Matrix.mul_nonsing_inv L.lat (Ne.isUnit hdet)]
  have h0 := hm 0
  have h1 := hm 1
  have h2 := hm 2
  simp only [Matrix.mul_apply, Fin.sum_univ_three] at h0 h1 h2
  simp only [frac2cartRow, dotProduct, Matrix.mulVec, Fin.sum_univ_three, Matrix.transpose_apply, Matrix.of_apply,
    Pi.add_apply, Pi.zero_apply, add_zero]
  rw [div_eq_iff hp]
  have hf : f j = (1 : Mat3 ℝ) j 0 * f 0 + (1 : Mat3 ℝ) j 1 * f 1 + (1 : Mat3 ℝ) j 2 * f 2 := by
    fin_cases j <;> simp [Matrix.one_apply]
  rw [hf]
  linear_combination (2 * Real.pi * f 0) * h0 + (2 * Real.pi * f 1) * h1 + (2 * Real.pi * f 2) * h2

/-- C77: on every process, for any number of processes up to the number of k-points and either backend, `calc_ac_cond`
returns the Kubo-Greenwood sum over the mesh, or the exception of the diagonalisation. -/
theorem C77_kubo (L : Lind) (w : World) (buf : ℕ → Buf) (fortran : Bool) (pos : ℤ → Vec3 ℝ) (eng : List ℝ)
    (hops : List (Cell × Pair × ℂ)) (comp : Option (Fin 3 × Fin 3)) (hn : w.size ≤ L.numKpt) (r : ℕ) (hr : r < w.size) :
    (L.acCond w buf fortran pos hops comp).map (fun d => d r) = acSpec L pos eng hops comp :=
  ac_run L w buf fortran pos eng hops comp hn r hr

/-- A case without an exception, on one or two processes. -/
example (pos : ℤ → Vec3 ℝ) (eng : List ℝ) (hops : List (Cell × Pair × ℂ)) :
    2 ≤ twoK.numKpt ∧ ∃ d, acSpec twoK pos eng hops (some (0, 0)) = .ok d := by
  refine ⟨by show 2 ≤ (buildKmeshGrid (2, 1, 1)).length; decide, ?_⟩
  have hdet : twoK.lat.det ≠ 0 := by simp [twoK]
  have he : ∀ k, eigen kxDiag k 1 = .ok (fun _ => k 0, fun _ _ => 1) := fun k => by
    unfold eigen kxDiag
    simp
  have hs : ∃ s, statesSpec twoK.D twoK.numKpt twoK.kFrac 1 = .ok s := by
    unfold statesSpec eigens
    rw [mapM_ok (fun i => eigen twoK.D (twoK.kFrac i) 1) (fun i => (fun _ => twoK.kFrac i 0, fun _ _ => 1)) _ (fun i _ => he _)]
    exact ⟨_, rfl⟩
  obtain ⟨s, hs⟩ := hs
  simp only [acSpec, Lind.frac2cart, recip_some _ hdet, hs, bind, Except.bind]
  exact ⟨_, rfl⟩

/-- C77: with more processes than k-points the calculation fails. -/
theorem C77_refused (L : Lind) (w : World) (buf : ℕ → Buf) (fortran : Bool) (pos : ℤ → Vec3 ℝ)
    (hops : List (Cell × Pair × ℂ)) (comp : Option (Fin 3 × Fin 3)) (hn : L.numKpt < w.size) (d : ℕ → ℕ → ℂ) :
    L.acCond w buf fortran pos hops comp ≠ .ok d := by
  have hb : ∀ bd, (onRanks w fun r => distBound w L.numKpt r) ≠ .ok bd := by
    intro bd h
    obtain ⟨l, h1, h2⟩ := map_eq_ok h
    rw [mapM_except, rowsOut_ok, firstErr_none] at h1
    obtain ⟨v, hv⟩ := h1.1 L.numKpt (List.mem_range.2 hn)
    rw [(C43_dist_bound w L.numKpt L.numKpt hn).1.2 le_rfl] at hv
    cases hv
  intro h
  simp only [Lind.acCond, bind, Except.bind] at h
  repeat' split at h
  all_goals first | exact absurd ‹_› (hb _) | cases h

/-- C76: the choice of the backend does not change the result of `calc_ac_cond`. -/
theorem C76_ac_cond (L : Lind) (w : World) (buf : ℕ → Buf) (pos : ℤ → Vec3 ℝ)
    (hops : List (Cell × Pair × ℂ)) (comp : Option (Fin 3 × Fin 3)) :
    L.acCond w buf true pos hops comp = L.acCond w buf false pos hops comp := by
  simp only [Lind.acCond, acLocal_backend]

end Verif.Props

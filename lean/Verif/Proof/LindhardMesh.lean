import Verif.Proof.LindhardPar

/-! # The k-mesh, the prefactor and the whole calculation -/

namespace Verif
open Props

/-! ## Mesh -/

theorem flatMap_range_get2 {A : Type*} (f : ℕ → List A) (c n x y : ℕ) (hc : ∀ x, (f x).length = c) (hx : x < n) (hy : y < c) :
    ((List.range n).flatMap f)[x * c + y]? = (f x)[y]? := by
  induction n with
  | zero => omega
  | succ n ih =>
    have hl : ((List.range n).flatMap f).length = n * c := by
      simp [List.length_flatMap, hc]
    rw [List.range_succ, List.flatMap_append]
    rcases Nat.lt_or_ge x n with h | h
    · rw [List.getElem?_append_left, ih h]
      rw [hl]
      calc x * c + y < (x + 1) * c := by rw [Nat.add_mul]; omega
        _ ≤ n * c := Nat.mul_le_mul_right _ h
    · have : x = n := by omega
      subst this
      rw [List.getElem?_append_right (by omega), hl]
      simp

theorem kmesh_length (m : ℕ × ℕ × ℕ) : (buildKmeshGrid m).length = m.1 * (m.2.1 * m.2.2) := by
  simp [buildKmeshGrid, List.length_flatMap]

theorem kmesh_get (m : ℕ × ℕ × ℕ) (a b c : ℕ) (ha : a < m.1) (hb : b < m.2.1) (hc : c < m.2.2) :
    (buildKmeshGrid m)[a * m.2.1 * m.2.2 + b * m.2.2 + c]? = some ((a : ℤ), (b : ℤ), (c : ℤ)) := by
  rw [buildKmeshGrid, show a * m.2.1 * m.2.2 + b * m.2.2 + c = a * (m.2.1 * m.2.2) + (b * m.2.2 + c) by ring,
    flatMap_range_get2 _ (m.2.1 * m.2.2) _ _ _ (fun x => by simp [List.length_flatMap]) ha, 
    flatMap_range_get2 _ m.2.2 _ _ _ (fun x => by simp) hb hc]
  · simp [hc]
  · calc b * m.2.2 + c < (b + 1) * m.2.2 := by rw [Nat.add_mul]; omega
      _ ≤ m.2.1 * m.2.2 := Nat.mul_le_mul_right _ hb

theorem kmesh_mem (m : ℕ × ℕ × ℕ) (g : Grid) :
    g ∈ buildKmeshGrid m ↔ (0 ≤ g.1 ∧ g.1 < m.1) ∧ (0 ≤ g.2.1 ∧ g.2.1 < m.2.1) ∧ (0 ≤ g.2.2 ∧ g.2.2 < m.2.2) := by
  obtain ⟨x, y, z⟩ := g
  simp only [buildKmeshGrid, List.mem_flatMap, List.mem_map, List.mem_range, Prod.mk.injEq]
  constructor
  · rintro ⟨a, ha, b, hb, c, hc, h1, h2, h3⟩
    omega
  · rintro ⟨⟨h1, h2⟩, ⟨h3, h4⟩, h5, h6⟩
    exact ⟨x.toNat, by omega, y.toNat, by omega, z.toNat, by omega, by omega, by omega, by omega⟩

theorem kmesh_kq (m : ℕ × ℕ × ℕ) (q g : Grid) (h : g ∈ buildKmeshGrid m) :
    0 ≤ kqIndex m q g ∧ (buildKmeshGrid m)[(kqIndex m q g).toNat]? = some (wrapSum m g q) := by
  obtain ⟨⟨h1, h2⟩, ⟨h3, h4⟩, h5, h6⟩ := (kmesh_mem m g).1 h
  have e1 : (q.1 + g.1).fmod (m.1 : ℤ) = (g.1 + q.1) % (m.1 : ℤ) := by
    rw [Int.fmod_eq_emod_of_nonneg _ (by omega), add_comm]
  have e2 : (q.2.1 + g.2.1).fmod (m.2.1 : ℤ) = (g.2.1 + q.2.1) % (m.2.1 : ℤ) := by
    rw [Int.fmod_eq_emod_of_nonneg _ (by omega), add_comm]
  have e3 : (q.2.2 + g.2.2).fmod (m.2.2 : ℤ) = (g.2.2 + q.2.2) % (m.2.2 : ℤ) := by
    rw [Int.fmod_eq_emod_of_nonneg _ (by omega), add_comm]
  have b1 := Int.emod_nonneg (g.1 + q.1) (b := (m.1 : ℤ)) (by omega)
  have b2 := Int.emod_nonneg (g.2.1 + q.2.1) (b := (m.2.1 : ℤ)) (by omega)
  have b3 := Int.emod_nonneg (g.2.2 + q.2.2) (b := (m.2.2 : ℤ)) (by omega)
  have c1 := Int.emod_lt_of_pos (g.1 + q.1) (b := (m.1 : ℤ)) (by omega)
  have c2 := Int.emod_lt_of_pos (g.2.1 + q.2.1) (b := (m.2.1 : ℤ)) (by omega)
  have c3 := Int.emod_lt_of_pos (g.2.2 + q.2.2) (b := (m.2.2 : ℤ)) (by omega)
  simp only [kqIndex, wrapSum, e1, e2, e3]
  generalize (g.1 + q.1) % (m.1 : ℤ) = x at *
  generalize (g.2.1 + q.2.1) % (m.2.1 : ℤ) = y at *
  generalize (g.2.2 + q.2.2) % (m.2.2 : ℤ) = z at *
  lift x to ℕ using b1
  lift y to ℕ using b2
  lift z to ℕ using b3
  refine ⟨by positivity, ?_⟩
  rw [show ((x : ℤ) * m.2.1 * m.2.2 + y * m.2.2 + z).toNat = x * m.2.1 * m.2.2 + y * m.2.2 + z by
    rw [show (x : ℤ) * m.2.1 * m.2.2 + y * m.2.2 + z = ((x * m.2.1 * m.2.2 + y * m.2.2 + z : ℕ) : ℤ) by push_cast; ring,
      Int.toNat_natCast]]
  exact kmesh_get m x y z (by omega) (by omega) (by omega)

theorem kmesh_nodup (m : ℕ × ℕ × ℕ) : (buildKmeshGrid m).Nodup := by
  rw [buildKmeshGrid, List.nodup_flatMap]
  refine ⟨fun a _ => ?_, ?_⟩
  · rw [List.nodup_flatMap]
    refine ⟨fun b _ => ?_, ?_⟩
    · refine List.Nodup.map ?_ List.nodup_range
      intro c c' h
      simpa using h
    · refine List.Pairwise.imp (R := fun a b => a ≠ b) ?_ List.nodup_range
      intro b b' hb g h1 h2
      simp only [List.mem_map] at h1 h2
      obtain ⟨c, _, rfl⟩ := h1
      obtain ⟨c', _, h⟩ := h2
      simp only [Prod.mk.injEq] at h
      omega
  · refine List.Pairwise.imp (R := fun a b => a ≠ b) ?_ List.nodup_range
    intro b b' hb g h1 h2
    simp only [List.mem_flatMap, List.mem_map] at h1 h2
    obtain ⟨c, _, d, _, rfl⟩ := h1
    obtain ⟨c', _, d', _, h⟩ := h2
    simp only [Prod.mk.injEq] at h
    omega

/-! ## Prefactor -/

theorem norm3_smul (c : ℝ) (v : Vec3 ℝ) : norm3 (fun i => c * v i) = |c| * norm3 v := by
  unfold norm3
  rw [show (c * v 0) ^ 2 + (c * v 1) ^ 2 + (c * v 2) ^ 2 = c ^ 2 * (v 0 ^ 2 + v 1 ^ 2 + v 2 ^ 2) by ring,
    Real.sqrt_mul (sq_nonneg c), Real.sqrt_sq_eq_abs]

theorem recip_some (lat : Mat3 ℝ) (h : lat.det ≠ 0) :
    genReciprocal lat = some (Matrix.of fun i j => 2 * Real.pi * lat⁻¹ j i) := by
  rw [genReciprocal, if_neg h]
  congr 2
  funext i j
  simp [Matrix.mulVec, dotProduct, mul_comm]

theorem recip_cross (lat : Mat3 ℝ) (h : lat.det ≠ 0) (a b : ℝ) (ha : a ≠ 0) (hb : b ≠ 0) :
    crossProduct (fun j => 2 * Real.pi * lat⁻¹ j 0 / a) (fun j => 2 * Real.pi * lat⁻¹ j 1 / b) =
      fun i => ((2 * Real.pi) ^ 2 / (lat.det * (a * b))) * lat 2 i := by
  have hd := Matrix.det_fin_three lat
  rw [cross_apply]
  simp only [Matrix.inv_def, Ring.inverse_eq_inv', Matrix.smul_apply, smul_eq_mul, Matrix.adjugate_fin_three]
  funext i
  fin_cases i <;> simp <;> field_simp <;> rw [hd] <;> ring

theorem factor_eq (L : Lind) (h : L.lat.det ≠ 0) (hm : 0 < L.mesh.1 ∧ 0 < L.mesh.2.1 ∧ 0 < L.mesh.2.2)
    (hd : L.dim = 2 ∨ L.dim = 3) : L.dynPolFactor = .ok (lindhardFactor L) := by
  have h1 : (L.mesh.1 : ℝ) ≠ 0 := by exact_mod_cast hm.1.ne'
  have h2 : (L.mesh.2.1 : ℝ) ≠ 0 := by exact_mod_cast hm.2.1.ne'
  have h3 : (L.mesh.2.2 : ℝ) ≠ 0 := by exact_mod_cast hm.2.2.ne'
  have hp : (2 * Real.pi) ≠ 0 := by positivity
  have hc := recip_cross L.lat h L.mesh.1 L.mesh.2.1 h1 h2
  simp only [Lind.dynPolFactor, Lind.getDnk, recip_some _ h, Except.map, lindhardFactor]
  congr 1
  have e0 : (Matrix.of fun i j => (Matrix.of fun i j => 2 * Real.pi * L.lat⁻¹ j i) i j /
      (![(L.mesh.1 : ℝ), L.mesh.2.1, L.mesh.2.2] i)) 0 = fun j => 2 * Real.pi * L.lat⁻¹ j 0 / L.mesh.1 := by
    funext j; simp
  have e1 : (Matrix.of fun i j => (Matrix.of fun i j => 2 * Real.pi * L.lat⁻¹ j i) i j /
      (![(L.mesh.1 : ℝ), L.mesh.2.1, L.mesh.2.2] i)) 1 = fun j => 2 * Real.pi * L.lat⁻¹ j 1 / L.mesh.2.1 := by
    funext j; simp
  have e2 : (Matrix.of fun i j => (Matrix.of fun i j => 2 * Real.pi * L.lat⁻¹ j i) i j /
      (![(L.mesh.1 : ℝ), L.mesh.2.1, L.mesh.2.2] i)) 2 = fun j => 2 * Real.pi * L.lat⁻¹ j 2 / L.mesh.2.2 := by
    funext j; simp
  rcases hd with hd | hd
  · rw [if_pos hd, if_pos hd, e0, e1, hc, norm3_smul, hd, abs_div, abs_mul, abs_of_pos (by positivity : (0:ℝ) < (2 * Real.pi) ^ 2),
      abs_of_pos (by positivity : (0:ℝ) < (L.mesh.1 : ℝ) * L.mesh.2.1)]
    have : |L.lat.det| ≠ 0 := abs_ne_zero.2 h
    field_simp
  · rw [if_neg (by omega), if_neg (by omega), latticeVolume, e0, e1, e2, hc, hd]
    have h5 : dotProduct (L.lat 2) (fun j => L.lat⁻¹ j 2) = 1 := by
      have := congrFun (congrFun (Matrix.mul_nonsing_inv L.lat (Ne.isUnit h)) 2) 2
      simpa [Matrix.mul_apply, dotProduct] using this
    have h6 : dotProduct (fun i => ((2 * Real.pi) ^ 2 / (L.lat.det * (L.mesh.1 * L.mesh.2.1))) * L.lat 2 i)
        (fun j => 2 * Real.pi * L.lat⁻¹ j 2 / L.mesh.2.2) =
        (2 * Real.pi) ^ 3 / (L.lat.det * (L.mesh.1 * L.mesh.2.1 * L.mesh.2.2)) := by
      rw [← mul_one ((2 * Real.pi) ^ 3 / (L.lat.det * (L.mesh.1 * L.mesh.2.1 * L.mesh.2.2))), ← h5]
      simp only [dotProduct, Fin.sum_univ_three]
      field_simp
    rw [h6, abs_div, abs_mul, abs_of_pos (by positivity : (0:ℝ) < (2 * Real.pi) ^ 3),
      abs_of_pos (by positivity : (0:ℝ) < (L.mesh.1 : ℝ) * L.mesh.2.1 * L.mesh.2.2)]
    have : |L.lat.det| ≠ 0 := abs_ne_zero.2 h
    field_simp

end Verif

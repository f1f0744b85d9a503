import Verif.Proof.Bloch
import Verif.Props.Prim
import Mathlib.LinearAlgebra.Matrix.Hermitian
import Mathlib.LinearAlgebra.UnitaryGroup

/-!
# Properties of the Bloch Hamiltonian (C09 - C13)
-/

set_option linter.unusedSectionVars false

namespace Verif.Props

open PrimCell Matrix

/-- The `n × n` array as a Mathlib matrix. -/
def toMatrix (n : ℕ) (h : IMat) : Matrix (Fin n) (Fin n) ℂ := Matrix.of (fun i j => h i j)

/-- **C09.** The matrix filled in by `set_ham` is Hermitian, for every list of hopping
terms (well formed or not), every k and either convention. -/
theorem C09_hermitian (pos : ℤ → Vec3 ℝ) (eng : List ℝ) (hops : List (Cell × Pair × ℂ))
    (conv : ℤ) (k : Vec3 ℝ) (n : ℕ) :
    (toMatrix n (setHam pos eng hops conv k IMat.zero)).IsHermitian := by
  ext i j
  simp only [conjTranspose_apply, toMatrix, of_apply]
  rw [setHam_apply, setHam_apply, star_add, setDiag_star, star_list_sum, List.map_map]
  congr 2
  exact List.map_congr_left (fun t _ => hopTerm_star pos conv k i j t)

/-- The diagonal matrix `diag(exp(2πi k·r_j))`. -/
noncomputable def phaseMatrix (n : ℕ) (pos : ℤ → Vec3 ℝ) (k : Vec3 ℝ) : Matrix (Fin n) (Fin n) ℂ :=
  diagonal (fun j => Complex.exp (2 * Real.pi * Complex.I * ((∑ x, k x * pos j x : ℝ) : ℂ)))

theorem phaseMatrix_eq (n : ℕ) (pos : ℤ → Vec3 ℝ) (k : Vec3 ℝ) :
    phaseMatrix n pos k = diagonal (fun j : Fin n => posPhase pos k j) := by
  unfold phaseMatrix posPhase
  congr 1
  funext j
  rw [eiPhase_eq_exp]
  congr 1
  push_cast; ring

theorem phaseMatrix_unitary (n : ℕ) (pos : ℤ → Vec3 ℝ) (k : Vec3 ℝ) :
    phaseMatrix n pos k ∈ Matrix.unitaryGroup (Fin n) ℂ := by
  rw [Matrix.mem_unitaryGroup_iff, phaseMatrix_eq, star_eq_conjTranspose, diagonal_conjTranspose,
    diagonal_mul_diagonal]
  rw [← diagonal_one]
  congr 1
  funext j
  exact eiPhase_mul_star _

theorem charpoly_conj_unitary {n : ℕ} (U A : Matrix (Fin n) (Fin n) ℂ)
    (hU : U ∈ Matrix.unitaryGroup (Fin n) ℂ) : (Uᴴ * A * U).charpoly = A.charpoly := by
  have h1 : U * Uᴴ = 1 := Matrix.mem_unitaryGroup_iff.1 hU
  have h2 : Uᴴ * U = 1 := Matrix.mem_unitaryGroup_iff'.1 hU
  have h := charpoly_units_conj (⟨Uᴴ, U, h2, h1⟩ : (Matrix (Fin n) (Fin n) ℂ)ˣ) A
  rwa [← Matrix.coe_units_inv] at h

/-- **C10.** Conventions 1 and 2 are related by the unitary `diag(exp(2πi k·r_j))`, hence have the
same characteristic polynomial (the same bands with multiplicities). -/
theorem C10_conventions_same_spectrum (pos : ℤ → Vec3 ℝ) (eng : List ℝ)
    (hops : List (Cell × Pair × ℂ)) (k : Vec3 ℝ) (n : ℕ) :
    phaseMatrix n pos k ∈ Matrix.unitaryGroup (Fin n) ℂ ∧
    toMatrix n (setHam pos eng hops 1 k IMat.zero) =
      (phaseMatrix n pos k)ᴴ * toMatrix n (setHam pos eng hops 2 k IMat.zero) * phaseMatrix n pos k ∧
    (toMatrix n (setHam pos eng hops 1 k IMat.zero)).charpoly =
      (toMatrix n (setHam pos eng hops 2 k IMat.zero)).charpoly := by
  have h : toMatrix n (setHam pos eng hops 1 k IMat.zero) =
      (phaseMatrix n pos k)ᴴ * toMatrix n (setHam pos eng hops 2 k IMat.zero) * phaseMatrix n pos k := by
    ext i j
    rw [phaseMatrix_eq, diagonal_conjTranspose, mul_diagonal, diagonal_mul]
    simp only [toMatrix, of_apply, Pi.star_apply]
    exact setHam_conv pos eng hops k i j
  exact ⟨phaseMatrix_unitary n pos k, h, by
    rw [h]; exact charpoly_conj_unitary _ _ (phaseMatrix_unitary n pos k)⟩

/-- **C11.** Shifting k by a reciprocal lattice vector leaves the convention-2 Hamiltonian
unchanged and conjugates the convention-1 Hamiltonian by `diag(exp(2πi G·r_j))`; the bands
are the same in both conventions. -/
theorem C11_periodic (pos : ℤ → Vec3 ℝ) (eng : List ℝ)
    (hops : List (Cell × Pair × ℂ)) (k : Vec3 ℝ) (G : Fin 3 → ℤ) (n : ℕ) :
    setHam pos eng hops 2 (fun x => k x + G x) IMat.zero = setHam pos eng hops 2 k IMat.zero ∧
    toMatrix n (setHam pos eng hops 1 (fun x => k x + G x) IMat.zero) =
      (phaseMatrix n pos (fun x => (G x : ℝ)))ᴴ * toMatrix n (setHam pos eng hops 1 k IMat.zero) *
        phaseMatrix n pos (fun x => (G x : ℝ)) ∧
    (toMatrix n (setHam pos eng hops 1 (fun x => k x + G x) IMat.zero)).charpoly =
      (toMatrix n (setHam pos eng hops 1 k IMat.zero)).charpoly := by
  have h : toMatrix n (setHam pos eng hops 1 (fun x => k x + G x) IMat.zero) =
      (phaseMatrix n pos (fun x => (G x : ℝ)))ᴴ * toMatrix n (setHam pos eng hops 1 k IMat.zero) *
        phaseMatrix n pos (fun x => (G x : ℝ)) := by
    ext i j
    rw [phaseMatrix_eq, diagonal_conjTranspose, mul_diagonal, diagonal_mul]
    simp only [toMatrix, of_apply, Pi.star_apply]
    rw [setHam_conv, setHam_conv pos eng hops k, setHam_shift]
    have key : ∀ i : ℤ, posPhase pos (fun x => k x + G x) i =
        posPhase pos k i * posPhase pos (fun x => (G x : ℝ)) i := by
      intro i
      unfold posPhase
      rw [← eiPhase_add, ← mul_add, ← Finset.sum_add_distrib]
      congr 2
      exact Finset.sum_congr rfl (fun x _ => by ring)
    rw [key, key, star_mul']
    ring
  exact ⟨setHam_shift pos eng hops k G, h, by
    rw [h]; exact charpoly_conj_unitary _ _ (phaseMatrix_unitary n pos _)⟩

variable {Λ : Type*}

theorem hopRows_fresh {s : PrimCell ℝ ℂ Λ} (hf : ArraysFresh s) : s.hopRows = s.hops.toList := by
  unfold hopRows
  rw [hf.ind, hf.hop, List.zipWith_map, List.zipWith_self]
  simp

theorem noDiag_of_WF {s : PrimCell ℝ ℂ Λ} (hw : WF s) (i : ℤ) :
    IntraHop.look s.hops 0 (i, i) = none := by
  by_contra hne
  obtain ⟨e, he⟩ := Option.ne_none_iff_exists'.1 hne
  exact (hw.rng _ _ _ _ he).2.2 ⟨rfl, rfl⟩

/-- **C12.** For a cell obtained by any history (removals in range) with synchronised arrays,
`H_ab(k) = δ_ab ε_a + Σ_R t_ab(R) exp(2πi k·(R [+ r_b - r_a]))`, where `t` is the full
map shown by `get_hopping`; the bracket is present in convention 1 only. -/
theorem C12_fourier_sum (H : HashFns ℝ ℂ Λ) (lat : Mat3 ℝ) (o : Vec3 ℝ)
    (cs : List (Call ℝ ℂ Λ)) (hr : InRange H (init H lat o) cs)
    (hf : ArraysFresh (run H (init H lat o) cs)) (k : Vec3 ℝ) (conv : ℤ) (ham : IMat)
    (hok : setHamDense (run H (init H lat o) cs) k conv = .ok ham)
    (a b : ℕ) (oa ob : Orbital ℝ Λ)
    (ha : (run H (init H lat o) cs).orbs[a]? = some oa)
    (hb : (run H (init H lat o) cs).orbs[b]? = some ob)
    (S : Finset Cell)
    (hS : ∀ R, (run H (init H lat o) cs).hops.get R a b ≠ none → R ∈ S) :
    ham a b = (if a = b then (oa.energy : ℂ) else 0) +
      ∑ R ∈ S, ((run H (init H lat o) cs).hops.get R a b).getD 0 *
        Complex.exp (2 * Real.pi * Complex.I *
          ((k 0 * (R.1 + (if conv = 1 then ob.position 0 - oa.position 0 else 0)) +
            k 1 * (R.2.1 + (if conv = 1 then ob.position 1 - oa.position 1 else 0)) +
            k 2 * (R.2.2 + (if conv = 1 then ob.position 2 - oa.position 2 else 0)) : ℝ) : ℂ)) := by
  have hw := WF_run H (WF_init H lat o) cs hr
  generalize run H (init H lat o) cs = s at *
  unfold setHamDense at hok
  split_ifs at hok
  simp only [Except.ok.injEq] at hok
  subst hok
  rw [setHam_apply, hopRows_fresh hf, sum_hopTerm_eq hw.inv (noDiag_of_WF hw) _ _ _ _ _ S hS,
    setDiag_apply]
  have posa : s.posAt a = oa.position := by
    simp [posAt, hf.pos, List.getD_eq_getElem?_getD, ha]
  have posb : s.posAt b = ob.position := by
    simp [posAt, hf.pos, List.getD_eq_getElem?_getD, hb]
  congr 1
  · by_cases hab : a = b
    · subst hab
      have hlt : a < s.orbs.length := (List.getElem?_eq_some_iff.1 ha).1
      rw [if_pos ⟨rfl, by omega, by simp [hf.eng, hlt]⟩, if_pos rfl]
      simp [hf.eng, List.getD_eq_getElem?_getD, ha]
    · rw [if_neg (by rintro ⟨h, -⟩; exact hab (by exact_mod_cast h)), if_neg hab]
  · apply Finset.sum_congr rfl
    intro R _
    rw [eiPhase_eq_exp]
    congr 2
    unfold hopPhase kDotR
    rw [posa, posb]
    split_ifs <;> push_cast <;> ring

/-- **C12 (order independence).** Two cells with the same orbitals and the same visible hopping
map get the same Hamiltonian, whatever order or spelling was used to build them. -/
theorem C12_order_independent (H H' : HashFns ℝ ℂ Λ) (lat lat' : Mat3 ℝ) (o o' : Vec3 ℝ)
    (cs cs' : List (Call ℝ ℂ Λ)) (hr : InRange H (init H lat o) cs)
    (hr' : InRange H' (init H' lat' o') cs')
    (hf : ArraysFresh (run H (init H lat o) cs)) (hf' : ArraysFresh (run H' (init H' lat' o') cs'))
    (horb : (run H (init H lat o) cs).orbs = (run H' (init H' lat' o') cs').orbs)
    (hhop : (run H (init H lat o) cs).hops.get = (run H' (init H' lat' o') cs').hops.get)
    (k : Vec3 ℝ) (conv : ℤ) (ham ham' : IMat)
    (hok : setHamDense (run H (init H lat o) cs) k conv = .ok ham)
    (hok' : setHamDense (run H' (init H' lat' o') cs') k conv = .ok ham') : ham = ham' := by
  have hw := WF_run H (WF_init H lat o) cs hr
  have hw' := WF_run H' (WF_init H' lat' o') cs' hr'
  generalize run H (init H lat o) cs = s at *
  generalize run H' (init H' lat' o') cs' = s' at *
  unfold setHamDense at hok hok'
  split_ifs at hok hok'
  simp only [Except.ok.injEq] at hok hok'
  subst hok hok'
  funext a b
  have hpos : s.posAt = s'.posAt := by
    funext i; unfold posAt; rw [hf.pos, hf'.pos, horb]
  have heng : s.arrEng = s'.arrEng := by rw [hf.eng, hf'.eng, horb]
  have hfin := C07_neighbours_finite s.hops a
  let S : Finset Cell := (hfin.image Prod.fst).toFinset
  have hS : ∀ R, s.hops.get R a b ≠ none → R ∈ S := by
    intro R hR
    exact (Set.Finite.mem_toFinset _).2 ⟨(R, b), hR, rfl⟩
  rw [setHam_apply, setHam_apply, hopRows_fresh hf, hopRows_fresh hf',
    sum_hopTerm_eq hw.inv (noDiag_of_WF hw) _ _ _ _ _ S hS,
    sum_hopTerm_eq hw'.inv (noDiag_of_WF hw') _ _ _ _ _ S (by rw [← hhop]; exact hS),
    hpos, heng, hhop]

/-- **C13.** `set_ham_csr` represents the same matrix as `set_ham_dense`, or raises the same error,
for every cell with synchronised arrays, every k and convention. -/
theorem C13_dense_eq_csr (s : PrimCell ℝ ℂ Λ) (hf : ArraysFresh s) (k : Vec3 ℝ) (conv : ℤ) :
    setHamCsr s k conv = setHamDense s k conv := by
  unfold setHamCsr setHamDense
  split_ifs
  iterate 2 rfl
  · congr 1
    funext a b
    rw [setHam_apply, hopRows_fresh hf]
    unfold csrHalf
    rw [foldl_half, foldl_half, flat_eq_toList]
    simp only [IMat.zero, zero_add]
    rw [star_list_sum, List.map_map, add_assoc, sum_map_add]
    congr 2
    apply List.map_congr_left
    intro t _
    simp only [Function.comp, hopTerm]
    congr 1
    · split_ifs with h
      · rw [h]; ring
      · rfl
    · split_ifs with h
      · rw [h, mul_comm]
      · simp
  · rfl

/-- Synchronising gives fresh arrays (when hashes do not collide over the history), so the
hypothesis of C12 and C13 is what `sync_array` establishes. -/
theorem C13_sync_gives_fresh (H : HashFns ℝ ℂ Λ) (lat : Mat3 ℝ) (o : Vec3 ℝ)
    (cs : List (Call ℝ ℂ Λ))
    (hinjO : Set.InjOn H.orb {l | ∃ pre, pre <+: cs ∧ l = (run H (init H lat o) pre).orbs})
    (hinjH : Set.InjOn H.hop {l | ∃ pre, pre <+: cs ∧ l = (run H (init H lat o) pre).hops.toList}) :
    ArraysFresh (syncArray H (run H (init H lat o) cs)) := by
  obtain ⟨h1, h2, h3, h4⟩ := C08_arrays_fresh_partial H lat o cs false hinjO hinjH
  generalize run H (init H lat o) cs = s at *
  have e1 := syncOrb_orbs H s false
  have hsame : (syncOrb H s false).hashHop = s.hashHop ∧ (syncOrb H s false).arrInd = s.arrInd ∧
      (syncOrb H s false).arrHop = s.arrHop := by
    unfold syncOrb; simp only; split_ifs <;> simp
  have a1 : (syncHop H (syncOrb H s false) false).arrPos = (syncOrb H s false).arrPos ∧
      (syncHop H (syncOrb H s false) false).arrEng = (syncOrb H s false).arrEng ∧
      (syncHop H (syncOrb H s false) false).orbs = (syncOrb H s false).orbs ∧
      (syncHop H (syncOrb H s false) false).hops = (syncOrb H s false).hops.purge := by
    generalize syncOrb H s false = s1
    unfold syncHop; simp only; split_ifs <;> simp
  have a2 : (syncHop H (syncOrb H s false) false).arrInd = (syncHop H s false).arrInd ∧
      (syncHop H (syncOrb H s false) false).arrHop = (syncHop H s false).arrHop := by
    unfold syncHop; simp only [e1.2, hsame.1]; split_ifs <;> simp [hsame]
  refine ⟨?_, ?_, ?_, ?_⟩
  · rw [syncArray, a1.1, a1.2.2.1, e1.1, h1]
  · rw [syncArray, a1.2.1, a1.2.2.1, e1.1, h2]
  · rw [syncArray, a2.1, h3, a1.2.2.2, toList_purge, e1.2]
  · rw [syncArray, a2.2, h4, a1.2.2.2, toList_purge, e1.2]

/-! ### Non-vacuity -/

/-- Two-site chain: `H_01(k) = t (1 + exp(-2πi k_a))` for hoppings `(0;0,1)` and `(-1;0,1)`,
in convention 2. -/
example (k : Vec3 ℝ) : setHam (fun _ => 0) [0, 0]
    [((0, 0, 0), (0, 1), 3), ((1, 0, 0), (1, 0), 3)] 2 k IMat.zero 0 1
      = 3 * (1 + eiPhase (-(2 * Real.pi * k 0))) := by
  rw [setHam_apply, setDiag_apply, eiPhase_neg]
  simp [hopTerm, hopPhase, kDotR, eiPhase_zero]
  ring

/-- A history ending with forced synchronisation: the hypotheses of C12 and C13 hold. -/
example (H : HashFns ℝ ℂ Unit) : ArraysFresh (run H (init H 1 0)
    [.inl (.addOrbital [0, 0] 1 ()), .inl (.addOrbital [1/2, 0] 2 ()),
     .inl (.addHopping [0, 0] 0 1 3), .inr (.syncOrb true), .inr (.syncHop true)]) := by
  constructor <;>
    simp [run, call, step, addOrbital, addHopping, checkHopIndex, checkLen, PrimCell.read, syncOrb, syncHop,
      init, numOrb, toList_purge]

end Verif.Props

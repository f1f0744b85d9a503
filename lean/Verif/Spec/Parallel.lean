import Verif.Model.Parallel

/-! # Specification notions for runs on several processes -/

namespace Verif

/-- Eigenvalues and column eigenvectors of the Hamiltonian at a k-point, with respect to the overlap if there is one; both
matrices are set up in zero matrices. -/
def eigen (D : Diag) (k : Vec3 ℝ) (conv : ℤ) : Except ParErr ((ℕ → ℝ) × (ℕ → ℕ → ℂ)) :=
  match D.setHam k conv (fun _ _ => 0) with
  | .error e => .error e
  | .ok h =>
    match D.setOvl with
    | none =>
      match D.zheev h with
      | none => .error .runtime
      | some r => .ok r
    | some setOvl =>
      match setOvl k conv (fun _ _ => 0) with
      | .error e => .error e
      | .ok s =>
        match D.zhegv h s with
        | none => .error .runtime
        | some r => .ok r

/-- The eigensystems of the k-points `0, …, n - 1` in order; the first exception ends the calculation. -/
def eigens (D : Diag) (n : ℕ) (kpts : ℕ → Vec3 ℝ) (conv : ℤ) :
    Except ParErr (List ((ℕ → ℝ) × (ℕ → ℕ → ℂ))) :=
  (List.range n).mapM fun i => eigen D (kpts i) conv

/-- What `calc_states` should return: row `i` belongs to k-point `i`, every state is a row. -/
def statesSpec (D : Diag) (n : ℕ) (kpts : ℕ → Vec3 ℝ) (conv : ℤ) :
    Except ParErr ((ℕ → ℕ → ℝ) × (ℕ → ℕ → ℕ → ℂ)) :=
  (eigens D n kpts conv).map fun rows =>
    (fun i b => match rows[i]? with | some q => q.1 b | none => 0,
     fun i b o => match rows[i]? with | some q => q.2 o b | none => 0)

/-- What `calc_bands` should return: energies in descending order and the weights of the states on the given
orbitals in the same order (one if no orbitals are given). -/
noncomputable def bandsSpec (D : Diag) (n : ℕ) (kpts : ℕ → Vec3 ℝ) (conv : ℤ) (orbs : Option (List ℕ)) :
    Except ParErr ((ℕ → ℕ → ℝ) × (ℕ → ℕ → ℝ)) :=
  (eigens D n kpts conv).map fun rows =>
    (fun i b => match rows[i]? with
      | some q => (match (D.argsort q.1).reverse[b]? with | some j => q.1 j | none => 0)
      | none => 0,
     fun i b => match orbs with
      | none => 1
      | some os => match rows[i]? with
        | some q => (match (D.argsort q.1).reverse[b]? with
          | some j => (os.map fun o => ‖q.2 o j‖ ^ 2).sum
          | none => 0)
        | none => 0)

/-- What `calc_dos` should return: the energy grid, and at grid point `x` the mean over all bands of the weighted basis
functions, times the spin degeneracy. -/
noncomputable def dosSpec (D : Diag) (n : ℕ) (kpts : ℕ → Vec3 ℝ) (conv : ℤ) (orbs : Option (List ℕ))
    (emin emax : Option ℝ) (step sigma : ℝ) (basis : ℝ → ℝ → ℝ → ℝ) (gs : ℝ) : Except ParErr (List ℝ × (ℕ → ℝ)) :=
  match bandsSpec D n kpts conv orbs with
  | .error e => .error e
  | .ok bd => match dosGrid n D.nb bd.1 emin emax step with
    | .error e => .error e
    | .ok grid => .ok (grid, fun x =>
        gs * (∑ k ∈ Finset.range n, ∑ b ∈ Finset.range D.nb,
          basis (grid.getD x 0) (bd.1 k b) sigma * bd.2 k b) / (n * D.nb : ℝ))

/-- Weight of state `j` at k-point `k` on the given orbitals; one if none are given. -/
noncomputable def stateWeight (q : ℕ → (ℕ → ℝ) × (ℕ → ℕ → ℂ)) (orbs : Option (List ℕ)) (k j : ℕ) : ℝ :=
  match orbs with | none => 1 | some os => (os.map fun o => ‖(q k).2 o j‖ ^ 2).sum

end Verif

import Verif.Props.Mpi
import Verif.Props.LindhardAC

/-! # C138: concrete cases -/

namespace Verif.Mpi

open Verif.Props

/-- There are implementations of MPI: everybody waits for everybody. -/
def strictMpi (R : Type) (root : R) : Impl R root where
  ready _ _ S := S = Set.univ
  all _ _ := rfl
  own _ r S h := by rw [h]; trivial
  sum _ _ h := h
  barrier _ _ h := h
  bcast _ S h := by rw [h]; trivial

/-- Another one: in a broadcast the root does not wait, and the others wait for the root only. -/
def eagerMpi (R : Type) (root : R) : Impl R root where
  ready c r S := match c with
    | .bcast => root ∈ S ∧ r ∈ S
    | _ => S = Set.univ
  all c r := by cases c <;> simp
  own c r S h := by
    cases c
    · rw [show S = Set.univ from h]; trivial
    · exact h.2
    · rw [show S = Set.univ from h]; trivial
  sum _ _ h := h
  barrier _ _ h := h
  bcast _ S h := h.1

/-- Messages with all types of arrays: tables of energies, of states and spectra. -/
abbrev Msg : Type := (ℕ → ℕ → ℝ) × (ℕ → ℕ → ℕ → ℂ) × (ℕ → ℂ)

noncomputable instance : Payload (ℕ → ℕ → ℝ) Msg := ⟨AddMonoidHom.inl _ _, AddMonoidHom.fst _ _, fun _ => rfl⟩

noncomputable instance : Payload (ℕ → ℕ → ℕ → ℂ) Msg :=
  ⟨(AddMonoidHom.inr _ _).comp (AddMonoidHom.inl _ _), (AddMonoidHom.fst _ _).comp (AddMonoidHom.snd _ _), fun _ => rfl⟩

noncomputable instance : Payload (ℕ → ℂ) Msg :=
  ⟨(AddMonoidHom.inr _ _).comp (AddMonoidHom.inr _ _), (AddMonoidHom.snd _ _).comp (AddMonoidHom.snd _ _), fun _ => rfl⟩

/-- `n + 1` processes. -/
def procs (n : ℕ) : World := ⟨true, n + 1, Nat.succ_pos n, fun h => by cases h⟩

/-- A run of two processes which calculate a correlation function - one has found 1, the other 3 - and take its square: both have 4, and
the screen shows the lines of the master. -/
example : Delivers (V := Msg) (World.root (procs 1)) (fun r => do
      outputProc (E := ParErr) (procs 1) (.ok ()) ["Output"] "par" r
      let x ← corrProc (procs 1) (some "dt") (fun r => .ok (fun _ => 1 + 2 * r : ℕ → ℂ)) (some "corr") r
      masterProc (procs 1) (.ok fun i => x i ^ 2 : Except ParErr (ℕ → ℂ)) r) (fun _ => fun _ => 4)
    (fun r => if r = World.root (procs 1) then [.print "Output", .save "par", .print "dt", .save "corr"] else []) := by
  refine C138_dos_script (V := Msg) (w := procs 1) (ε := ParErr) (loc := fun r => .ok (fun _ => 1 + 2 * r : ℕ → ℂ))
    (f := fun x => (.ok fun i => x i ^ 2 : Except ParErr (ℕ → ℂ))) (c := fun r => ([fun _ => 1, fun _ => 3] : List (ℕ → ℂ)).getD r default) ?_ ?_ ["Output"] "par" "dt" "corr"
  · show Except.ok _ = Except.ok _
    congr 1
    funext r
    match r with
    | 0 => simp [procs, List.range_succ]
    | 1 => simp [procs, List.range_succ]; norm_num
    | r + 2 => simp [procs, List.range_succ]
  · congr 1
    funext i
    simp [allAverage, procs, mpiSum, List.range_succ]
    norm_num

/-- Three processes and two k-points: the AC conductivity hangs, for any implementation of MPI.  Process 2 raises, process 0 waits for ever. -/
example (buf : ℕ → Buf) (fortran : Bool) : Hangs (V := Msg) (World.root (procs 2))
    (fun r => acProc twoK (procs 2) (buf r) fortran (fun _ => 0) [((1, 0, 0), (0, 0), 1)] (some (0, 0)) r) (World.root (procs 2)) := by
  have hn : twoK.numKpt = 2 := by show (buildKmeshGrid (2, 1, 1)).length = 2; decide
  have hdet : twoK.lat.det ≠ 0 := by simp [twoK]
  have hd : distRange (procs 2) 2 0 = (0, 1) := by decide
  obtain ⟨st, hst⟩ : ∃ st, (rangeElems (0, 1)).foldlM (statesStep twoK.D twoK.kFrac 1) ((buf 0, 0, 0) : StSt) = .ok st := by
    have : rangeElems (0, 1) = [0] := by decide
    rw [this]
    simp [statesStep, diagDense, twoK, kxDiag, List.foldlM, bind, Except.bind, pure, Except.pure]
  obtain ⟨km, hkm⟩ : ∃ km, twoK.frac2cart ((buildKmeshGrid twoK.mesh).map twoK.grid2frac) = .ok km := by
    simp only [Lind.frac2cart, recip_some _ hdet]
    exact ⟨_, rfl⟩
  refine C138_ac_hangs rfl (by rw [hn]; decide) buf fortran _ _ (0, 0) hkm _ (by rw [hn]; decide) (st := st) ?_
  · rw [hn]
    show (rangeElems (distRange (procs 2) 2 0)).foldlM _ _ = _
    rw [hd]
    exact hst

/-- Two processes and no permission to make the directory: process 1 waits for ever. -/
example : Hangs (V := Msg) (World.root (procs 1)) (fun r => outputProc (procs 1) (.error "PermissionError") ["Output"] "par" r) ⟨1, by decide⟩ :=
  C138_output_hangs rfl _ _ _ _ (by decide)

end Verif.Mpi

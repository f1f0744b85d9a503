import Verif.Model.Omp

/-! # Specification of parallel loops -/

namespace Verif.Omp

variable {L V T ι : Type*} [DecidableEq L] [DecidableEq T]

/-- The iterations `its` are distributed over the threads: each iteration is done once, by one thread. -/
def Distributed [Fintype T] (chunks : T → List ι) (its : List ι) : Prop := (Finset.univ.toList.flatMap chunks).Perm its

/-- All loads of the program are from `R`, all stores to `W`, whatever values are loaded. -/
def Prog.Within (R W : Set L) : Prog L V → Prop
  | .done => True
  | .load l k => l ∈ R ∧ ∀ v, (k v).Within R W
  | .store l _ k => l ∈ W ∧ k.Within R W

/-- No iteration writes to an element which another one reads or writes. -/
def RaceFree (its : List ι) (R W : ι → Set L) : Prop := ∀ i ∈ its, ∀ j ∈ its, i ≠ j → Disjoint (W i) (R j ∪ W j)

/-- The loop done by one thread, in the given order. -/
def serialDo (body : ι → Prog L V) (its : List ι) (m : L → V) : L → V := its.foldl (fun m i => (body i).run m) m

/-- The memory with the arrays `mem`: element `i` of array `b` is the location `(b, i)`. -/
def flat {B I : Type*} (mem : B → I → V) : B × I → V := fun l => mem l.1 l.2

/-- The stages of `fft1d_inplace` (fft.F90:37-53), each of them with any number of threads, distribution and interleaving: `y` is a
possible content of the array at the end. -/
inductive FftStages (sgn : ℤ) (n : ℕ) : ℕ → (ℕ → ℂ) → (ℕ → ℂ) → Prop
  | last {ncur : ℕ} {x : ℕ → ℂ} (h : ncur / 2 < 1) : FftStages sgn n ncur x x
  | stage {ncur k : ℕ} {x x' y : ℕ → ℂ} (h : ¬ ncur / 2 < 1) (chunks : Fin k → List ℕ) (hc : Distributed chunks (List.range (ncur / 2)))
      (hx : ParallelDo (columnProg sgn n ncur (ncur / 2)) chunks x x') (hy : FftStages sgn n (ncur / 2) x' y) : FftStages sgn n ncur x y

end Verif.Omp

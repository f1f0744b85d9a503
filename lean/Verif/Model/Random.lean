import Verif.Model.Super
import Verif.Model.Parallel

/-!
# Model of the seeding of the random numbers, `/repo/tbplas/fortran/random.f90` 14-33 and 36-52

Default integers of Fortran have 32 bits; products wrap (what gfortran does; the standard leaves overflow undefined).  The number `n` of
words is chosen by the compiler (`RANDOM_SEED(size=n)`, 8 in current gfortran).  The numbers drawn afterwards are a function of
the words put in; the generator itself is not modelled.
-/

namespace Verif.Random

/-- `seed*(i_sample+rank*n_ran_samples)`, e.g. tbpm.f90:57, in 32 bits. -/
def sampleSeed32 (seed : ℤ) (ns rank i : ℕ) : ℤ := i32 (seed * i32 (i + i32 (rank * ns)))

/-- `init_seed`, random.f90:14-33: the words put into the generator. -/
def initSeed (n : ℕ) (idum : ℤ) : List ℤ :=
  (List.range' 1 n).map fun i : ℕ => i32 (i32 (i * idum) * 74231) % 104717

/-- Lines 49-51 of `random_state`: the words for the seed `iseed`. -/
def seedWords (n : ℕ) (iseed : ℤ) : List ℤ := initSeed n (i32 (iseed * 49741))

end Verif.Random

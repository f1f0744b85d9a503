import Verif.Model.Mpi

/-! # Runs of several processes in lockstep, and scripts -/

namespace Verif.Mpi

variable {R V E α : Type} [Fintype R] [DecidableEq R] [AddCommMonoid V]

/-- The program `p` of process `r` takes part in the operations `rs` with the data given there, does `o` visibly and returns `a`, if it
gets the results of the operations. -/
inductive Follows (root r : R) : List (Coll × (R → V)) → Proc V E α → α → List Act → Prop
  | ret (a : α) : Follows root r [] (.ret a) a []
  | act {rs : List (Coll × (R → V))} {s : Act} {k : Proc V E α} {a : α} {o : List Act} (h : Follows root r rs k a o) :
      Follows root r rs (.act s k) a (s :: o)
  | coll {rs : List (Coll × (R → V))} {c : Coll} {x : R → V} {k : V → Proc V E α} {a : α} {o : List Act}
      (h : Follows root r rs (k (combine root c x r)) a o) : Follows root r ((c, x) :: rs) (.coll c (x r) k) a o

/-- In lockstep the processes return `a` and do `o` visibly: there is a sequence of operations all of them follow. -/
def Lockstep (root : R) (p : R → Proc V E α) (a : R → α) (o : R → List Act) : Prop :=
  ∃ rs, ∀ r, Follows root r rs (p r) (a r) (o r)

/-- Whatever MPI does, the run comes to an end, and then process `r` has returned `a r` and done `o r` visibly: there is no infinite
execution, and an execution which cannot go on is at its end. -/
def Delivers (root : R) (p : R → Proc V E α) (a : R → α) (o : R → List Act) : Prop :=
  ∀ I : Impl R root, (∀ s, Relation.ReflTransGen (Step root I) (start p) s → (∀ s', ¬ Step root I s s') →
      ∀ r, s.proc r = .ret (a r) ∧ s.log r = o r) ∧
    ¬ ∃ f : ℕ → State R V E α, f 0 = start p ∧ ∀ n, Step root I (f n) (f (n + 1))

/-- Process `r` neither returns nor raises, whatever MPI does. -/
def Hangs (root : R) (p : R → Proc V E α) (r : R) : Prop :=
  ∀ I : Impl R root, ∀ s, Relation.ReflTransGen (Step root I) (start p) s →
    (∀ a, s.proc r ≠ .ret a) ∧ ∀ e, s.proc r ≠ .raise e

/-- A script: calls one after the other; which one is next may depend on what the calls before have returned.  All processes run the
same script. -/
inductive Script (R V E α : Type) : Type 1 where
  | done (a : α) : Script R V E α
  | call {β : Type} (p : R → Proc V E β) (k : β → Script R V E α) : Script R V E α

/-- The program of process `r`. -/
def Script.proc (r : R) : Script R V E α → Proc V E α
  | .done a => .ret a
  | .call p k => (p r).bind fun b => (k b).proc r

/-- Every call of the script, with the results the calls before give, returns the same value on all processes, and only the
master `root` does something visible; `a` is the result of the script and `o` is what is visible. -/
inductive Script.Sound (root : R) : Script R V E α → α → List Act → Prop
  | done (a : α) : Sound root (.done a) a []
  | call {β : Type} {p : R → Proc V E β} {k : β → Script R V E α} {b : β} {a : α} {o o' : List Act}
      (hp : Lockstep root p (fun _ => b) (fun r => if r = root then o else [])) (hk : Sound root (k b) a o') :
      Sound root (.call p k) a (o ++ o')

end Verif.Mpi

import Verif.Spec.Mpi

/-! # Proofs about runs of several processes -/

namespace Verif.Mpi

variable {R V E α β : Type} [Fintype R] [DecidableEq R] [AddCommMonoid V]

/-- State `s` is on the way given by `rs`, and process `r` has left `n r` of the operations. -/
structure Inv (root : R) (rs : List (Coll × (R → V))) (a : R → α) (o : R → List Act) (s : State R V E α) (n : R → ℕ) : Prop where
  le : ∀ r, n r ≤ rs.length
  fol : ∀ r, ∃ o', Follows root r (rs.drop (n r)) (s.proc r) (a r) o' ∧ s.log r ++ o' = o r
  post : ∀ r, s.posted r = (rs.take (n r + (s.inside r).toNat)).map fun e => (e.1, e.2 r)
  ins : ∀ r, s.inside r = true → ∃ c x k, s.proc r = .coll c x k

variable {root : R} {rs : List (Coll × (R → V))} {a : R → α} {o : R → List Act} {s s' : State R V E α} {n : R → ℕ}

theorem drop_head {γ : Type*} {l : List γ} {m : ℕ} {e : γ} {t : List γ} (h : l.drop m = e :: t) : l[m]? = some e ∧ l.drop (m + 1) = t := by
  constructor
  · have := congrArg (·[0]?) h
    simpa using this
  · rw [← List.tail_drop, h, List.tail_cons]

/-- What is known of a process at an operation. -/
theorem Inv.coll (h : Inv root rs a o s n) {r : R} {c : Coll} {x : V} {k : V → Proc V E α} (hp : s.proc r = .coll c x k) :
    ∃ xs, rs[n r]? = some (c, xs) ∧ x = xs r ∧
      ∃ o', Follows root r (rs.drop (n r + 1)) (k (combine root c xs r)) (a r) o' ∧ s.log r ++ o' = o r := by
  obtain ⟨o', hf, ho⟩ := h.fol r
  rw [hp] at hf
  generalize hd : rs.drop (n r) = d at hf
  cases hf with
  | @coll t _ xs _ _ _ hf' =>
    obtain ⟨h1, h2⟩ := drop_head hd
    exact ⟨xs, h1, rfl, o', h2 ▸ hf', ho⟩

theorem Inv.posted_get (h : Inv root rs a o s n) (q : R) (m : ℕ) :
    (s.posted q)[m]? = if m < n q + (s.inside q).toNat then (rs[m]?).map fun e => (e.1, e.2 q) else none := by
  rw [h.post q, List.getElem?_map, List.getElem?_take]
  split_ifs <;> rfl

theorem Inv.lt (h : Inv root rs a o s n) {r : R} (hi : s.inside r = true) : n r < rs.length := by
  obtain ⟨c, x, k, hp⟩ := h.ins r hi
  obtain ⟨xs, h1, -⟩ := h.coll hp
  exact (List.getElem?_eq_some_iff.1 h1).1

theorem Inv.posted_len (h : Inv root rs a o s n) (q : R) : (s.posted q).length = n q + (s.inside q).toNat := by
  rw [h.post q, List.length_map, List.length_take]
  have := h.le q
  cases hi : s.inside q
  · simp [this]
  · have := h.lt hi
    simp; omega

/-- How far the run has come. -/
def prog (s : State R V E α) (n : R → ℕ) : ℕ := ∑ r, ((s.log r).length + 2 * n r + (s.inside r).toNat)

theorem prog_le (h : Inv root rs a o s n) : prog s n ≤ ∑ r, ((o r).length + 2 * rs.length) := by
  refine Finset.sum_le_sum fun r _ => ?_
  obtain ⟨o', -, ho⟩ := h.fol r
  have h1 : (s.log r).length ≤ (o r).length := by rw [← ho, List.length_append]; omega
  have h2 := h.le r
  cases hi : s.inside r
  · simp; omega
  · have := h.lt hi
    simp; omega

theorem sum_one {f g : R → ℕ} (r : R) (h : f r = g r + 1) (h' : ∀ q ≠ r, f q = g q) : ∑ q, f q = ∑ q, g q + 1 := by
  rw [← Finset.add_sum_erase _ _ (Finset.mem_univ r), ← Finset.add_sum_erase _ _ (Finset.mem_univ r), h,
    Finset.sum_congr rfl (fun q hq => h' q (Finset.ne_of_mem_erase hq))]
  exact add_right_comm _ _ _

/-- A step keeps to the way and is progress. -/
theorem inv_step {I : Impl R root} (h : Inv root rs a o s n) (hs : Step root I s s') : ∃ n', Inv root rs a o s' n' ∧ prog s' n' = prog s n + 1 := by
  cases hs with
  | @act r e k hp =>
    have hi : s.inside r = false := by
      by_contra hi
      obtain ⟨c, x, k', hp'⟩ := h.ins r (by simpa using hi)
      rw [hp] at hp'; cases hp'
    refine ⟨n, ⟨h.le, fun q => ?_, h.post, fun q hq => ?_⟩, ?_⟩
    · by_cases hq : q = r
      · subst hq
        obtain ⟨o', hf, ho⟩ := h.fol q
        rw [hp] at hf
        generalize rs.drop (n q) = d at hf
        cases hf with
        | act hf => exact ⟨_, by simpa using hf, by simp [← ho]⟩
      · obtain ⟨o', hf, ho⟩ := h.fol q
        exact ⟨o', by simpa [hq] using hf, by simpa [hq] using ho⟩
    · have : q ≠ r := fun e => by rw [e, hi] at hq; cases hq
      simpa [this] using h.ins q hq
    · refine sum_one r (by simp; omega) fun q hq => by simp [hq]
  | @arrive r c x k hp hi =>
    obtain ⟨xs, h1, rfl, -⟩ := h.coll hp
    refine ⟨n, ⟨h.le, h.fol, fun q => ?_, fun q hq => ?_⟩, ?_⟩
    · by_cases hq : q = r
      · subst hq
        simp only [Function.update_self, h.post q, hi, Bool.toNat_false, Bool.toNat_true, add_zero]
        rw [List.take_add_one, h1]
        simp
      · simp only [Function.update_of_ne hq]
        exact h.post q
    · by_cases hq' : q = r
      · subst hq'
        exact ⟨_, _, _, hp⟩
      · exact h.ins q (by simpa [hq'] using hq)
    · refine sum_one r (by simp [hi]) fun q hq => by simp [hq]
  | @leave r c x k hp hi hk hr =>
    obtain ⟨xs, h1, rfl, o', hf, ho⟩ := h.coll hp
    have hlt := h.lt hi
    have hlen : (s.posted r).length - 1 = n r := by rw [h.posted_len r, hi]; rfl
    have hget : ∀ q, n r < (s.posted q).length → (((s.posted q)[n r]?).map Prod.snd).getD 0 = xs q := by
      intro q hq
      rw [h.posted_get q, if_pos (by rwa [← h.posted_len q]), h1]
      rfl
    rw [hlen] at hr ⊢
    have hc : combine root c (fun q => (((s.posted q)[n r]?).map Prod.snd).getD 0) r = combine root c xs r := by
      cases c with
      | allReduce =>
        have := I.sum _ _ hr
        exact Finset.sum_congr rfl fun q _ => hget q (by
          have : q ∈ {q | n r < (s.posted q).length} := this ▸ Set.mem_univ q
          exact this)
      | bcast => exact hget root (I.bcast _ _ hr)
      | barrier => exact hget r (I.own _ _ _ hr)
    rw [hc]
    refine ⟨Function.update n r (n r + 1), ⟨fun q => ?_, fun q => ?_, fun q => ?_, fun q hq => ?_⟩, ?_⟩
    · by_cases hq : q = r
      · subst hq; simpa using hlt
      · simpa [hq] using h.le q
    · by_cases hq : q = r
      · subst hq
        exact ⟨o', by simpa using hf, ho⟩
      · simpa [hq] using h.fol q
    · by_cases hq : q = r
      · subst hq
        simp only [Function.update_self, Bool.toNat_false, add_zero]
        rw [h.post q, hi]
        rfl
      · simp only [Function.update_of_ne hq]
        exact h.post q
    · by_cases hq' : q = r
      · subst hq'; simp at hq
      · simp only [Function.update_of_ne hq'] at hq ⊢
        exact h.ins q hq
    · refine sum_one r (by simp [hi]; omega) fun q hq => by simp [hq]

/-- Without a possible step all processes have returned. -/
theorem inv_stuck {I : Impl R root} (h : Inv root rs a o s n) (hs : ∀ s', ¬ Step root I s s') (r : R) : s.proc r = .ret (a r) ∧ s.log r = o r := by
  have key : ∀ r, (s.proc r = .ret (a r) ∧ s.log r = o r ∧ n r = rs.length) ∨ s.inside r = true := by
    intro r
    obtain ⟨o', hf, ho⟩ := h.fol r
    generalize hd : rs.drop (n r) = d at hf
    generalize hp : s.proc r = p at hf
    cases hf with
    | ret a' =>
      refine Or.inl ⟨rfl, by simpa using ho, ?_⟩
      have := h.le r
      have := List.drop_eq_nil_iff.1 hd
      omega
    | act hf => exact absurd (Step.act r hp) (hs _)
    | coll hf =>
      right
      by_contra hi
      exact hs _ (Step.arrive r hp (by simpa using hi))
  by_contra hne
  have hr : s.inside r = true := by
    rcases key r with hk | hk
    · exact absurd ⟨hk.1, hk.2.1⟩ hne
    · exact hk
  obtain ⟨r0, hr0, hmin⟩ := Finset.exists_min_image (Finset.univ.filter fun q => s.inside q = true) n ⟨r, by simpa using hr⟩
  have hi : s.inside r0 = true := by simpa using hr0
  obtain ⟨c, x, k, hp⟩ := h.ins r0 hi
  obtain ⟨xs, h1, -⟩ := h.coll hp
  have hlen : (s.posted r0).length - 1 = n r0 := by rw [h.posted_len r0, hi]; rfl
  refine hs _ (Step.leave r0 hp hi (fun q e he => ?_) ?_)
  · rw [hlen, h.posted_get q, h1] at he
    split_ifs at he
    · simp only [Option.map_some, Option.mem_def, Option.some.injEq] at he
      rw [← he]
    · simp at he
  · rw [hlen]
    have : {q | n r0 < (s.posted q).length} = Set.univ := by
      ext q
      simp only [Set.mem_setOf_eq, Set.mem_univ, iff_true]
      rw [h.posted_len q]
      rcases key q with ⟨-, -, hq⟩ | hq
      · have := h.lt hi
        omega
      · have := hmin q (by simpa using hq)
        rw [hq]
        simp; omega
    rw [this]
    exact I.all c r0

theorem inv_start {p : R → Proc V E α} (h : ∀ r, Follows root r rs (p r) (a r) (o r)) : Inv root rs a o (start p) (fun _ => 0) :=
  ⟨fun _ => Nat.zero_le _, fun r => ⟨o r, by simpa [start] using h r, rfl⟩, fun r => by simp [start], fun r hr => by simp [start] at hr⟩

/-- What happens in lockstep happens always. -/
theorem lockstep_delivers {p : R → Proc V E α} (h : Lockstep root p a o) : Delivers root p a o := by
  obtain ⟨rs, h⟩ := h
  intro I
  refine ⟨fun s hs hstuck => ?_, fun ⟨f, hf0, hf⟩ => ?_⟩
  · have : ∃ n, Inv root rs a o s n := by
      clear hstuck
      induction hs with
      | refl => exact ⟨_, inv_start h⟩
      | tail _ hs ih =>
        obtain ⟨n, hn⟩ := ih
        obtain ⟨n', hn', -⟩ := inv_step hn hs
        exact ⟨n', hn'⟩
    obtain ⟨n, hn⟩ := this
    exact inv_stuck hn hstuck
  · have : ∀ m, ∃ n, Inv root rs a o (f m) n ∧ m ≤ prog (f m) n := by
      intro m
      induction m with
      | zero => exact ⟨_, hf0 ▸ inv_start h, Nat.zero_le _⟩
      | succ m ih =>
        obtain ⟨n, hn, hm⟩ := ih
        obtain ⟨n', hn', he⟩ := inv_step hn (hf m)
        exact ⟨n', hn', by omega⟩
    obtain ⟨n, hn, hm⟩ := this (∑ r, ((o r).length + 2 * rs.length) + 1)
    have := prog_le hn
    omega

/-! ## Composition -/

theorem follows_bind {r : R} {rs rs' : List (Coll × (R → V))} {p : Proc V E α} {f : α → Proc V E β} {x : α} {y : β} {o o' : List Act}
    (h : Follows root r rs p x o) (h' : Follows root r rs' (f x) y o') : Follows root r (rs ++ rs') (p.bind f) y (o ++ o') := by
  induction h with
  | ret a => exact h'
  | act _ ih => exact .act (ih h')
  | coll _ ih => exact .coll (ih h')

theorem lockstep_bind {p : R → Proc V E α} {f : R → α → Proc V E β} {b : R → β} {o o' : R → List Act} (h : Lockstep root p a o)
    (h' : Lockstep root (fun r => f r (a r)) b o') : Lockstep root (fun r => (p r).bind (f r)) b (fun r => o r ++ o' r) := by
  obtain ⟨rs, h⟩ := h
  obtain ⟨rs', h'⟩ := h'
  exact ⟨rs ++ rs', fun r => follows_bind (h r) (h' r)⟩

theorem lockstep_ret (a : R → α) : Lockstep (V := V) (E := E) root (fun r => .ret (a r)) a (fun _ => []) := ⟨[], fun r => .ret _⟩

/-- Without visible actions. -/
theorem lockstep_bind' {p : R → Proc V E α} {f : R → α → Proc V E β} {b : R → β} (h : Lockstep root p a (fun _ => []))
    (h' : Lockstep root (fun r => f r (a r)) b (fun _ => [])) : Lockstep root (fun r => (p r).bind (f r)) b (fun _ => []) := lockstep_bind h h'

/-- A sound script. -/
theorem script_lockstep {sc : Script R V E α} {x : α} {out : List Act} (h : sc.Sound root x out) :
    Lockstep root (fun r => sc.proc r) (fun _ => x) (fun r => if r = root then out else []) := by
  induction h with
  | done a =>
    have := lockstep_ret (V := V) (E := E) (root := root) (fun _ => a)
    simpa [Script.proc] using this
  | @call β p k b a o o' hp hk ih =>
    have := lockstep_bind (f := fun r b => (k b).proc r) hp ih
    refine Eq.subst (motive := fun z => Lockstep root _ _ z) ?_ this
    funext r
    split_ifs <;> simp

/-! ## Processes which fail -/

/-- The program raises after at most `n` collective operations. -/
inductive Fails : ℕ → Proc V E α → Prop
  | raise {n : ℕ} (e : E) : Fails n (.raise e)
  | act {n : ℕ} {s : Act} {k : Proc V E α} (h : Fails n k) : Fails n (.act s k)
  | coll {n : ℕ} {c : Coll} {x : V} {k : V → Proc V E α} (h : ∀ v, Fails n (k v)) : Fails (n + 1) (.coll c x k)

/-- The program neither returns nor raises before it has left its operation number `n` (from 0), which needs process `q`. -/
inductive Needs (root q : R) : ℕ → Proc V E α → Prop
  | act {n : ℕ} {s : Act} {k : Proc V E α} (h : Needs root q n k) : Needs root q n (.act s k)
  | zero {c : Coll} {x : V} {k : V → Proc V E α} (h : c ≠ .bcast ∨ q = root) : Needs root q 0 (.coll c x k)
  | coll {n : ℕ} {c : Coll} {x : V} {k : V → Proc V E α} (h : ∀ v, Needs root q n (k v)) : Needs root q (n + 1) (.coll c x k)

theorem hang {p : R → Proc V E α} {q r : R} {m : ℕ} (hq : Fails m (p q)) (hr : Needs root q m (p r)) : Hangs root p r := by
  intro I s hs
  have key : (∀ t, s.inside t = true → ∃ c x k, s.proc t = .coll c x k) ∧
      (∃ j, Fails j (s.proc q) ∧ (s.posted q).length + j ≤ m + (s.inside q).toNat) ∧
      ∃ i, Needs root q i (s.proc r) ∧ (s.posted r).length + i = m + (s.inside r).toNat := by
    induction hs with
    | refl => exact ⟨fun t ht => by simp [start] at ht, ⟨m, hq, by simp [start]⟩, ⟨m, hr, by simp [start]⟩⟩
    | @tail s s' _ hs ih =>
      obtain ⟨h1, ⟨j, hj, hj'⟩, i, hi, hi'⟩ := ih
      have hlt : (s.posted q).length ≤ m := by
        cases hin : s.inside q
        · simpa [hin] using (show (s.posted q).length ≤ m by rw [hin] at hj'; simp at hj'; omega)
        · obtain ⟨c, x, k, hp⟩ := h1 q hin
          rw [hp] at hj
          cases hj with
          | coll hj => rw [hin] at hj'; simp at hj'; omega
      cases hs with
      | @act t e k hp =>
        refine ⟨fun u hu => ?_, ⟨j, ?_, hj'⟩, i, ?_, hi'⟩
        · have : u ≠ t := by
            rintro rfl
            obtain ⟨c, x, k', hp'⟩ := h1 u hu
            rw [hp] at hp'; cases hp'
          simpa [this] using h1 u hu
        · by_cases hqt : q = t
          · subst hqt
            rw [hp] at hj
            cases hj with
            | act hj => simpa using hj
          · simpa [hqt] using hj
        · by_cases hrt : r = t
          · subst hrt
            rw [hp] at hi
            cases hi with
            | act hi => simpa using hi
          · simpa [hrt] using hi
      | @arrive t c x k hp hin =>
        refine ⟨fun u hu => ?_, ⟨j, hj, ?_⟩, i, hi, ?_⟩
        · by_cases hut : u = t
          · subst hut; exact ⟨_, _, _, hp⟩
          · exact h1 u (by simpa [hut] using hu)
        · by_cases hqt : q = t
          · subst hqt
            rw [hin] at hj'
            simp at hj' ⊢; omega
          · simpa [hqt] using hj'
        · by_cases hrt : r = t
          · subst hrt
            rw [hin] at hi'
            simp at hi' ⊢; omega
          · simpa [hrt] using hi'
      | @leave t c x k hp hin hk hready =>
        refine ⟨fun u hu => ?_, ?_, ?_⟩
        · by_cases hut : u = t
          · subst hut; simp at hu
          · simp only [Function.update_of_ne hut] at hu ⊢
            exact h1 u hu
        · by_cases hqt : q = t
          · subst hqt
            rw [hp] at hj
            cases hj with
            | @coll j _ _ _ hj => exact ⟨j, by simpa using hj _, by rw [hin] at hj'; simp at hj' ⊢; omega⟩
          · exact ⟨j, by simpa [hqt] using hj, by simpa [hqt] using hj'⟩
        · by_cases hrt : r = t
          · subst hrt
            rw [hp] at hi
            rw [hin] at hi'
            cases hi with
            | zero hc =>
              exfalso
              have hlen : (s.posted r).length - 1 = m := by simp at hi'; omega
              rw [hlen] at hready
              have : q ∈ {q | m < (s.posted q).length} := by
                cases c with
                | allReduce => rw [I.sum _ _ hready]; trivial
                | barrier => rw [I.barrier _ _ hready]; trivial
                | bcast =>
                  rcases hc with hc | rfl
                  · exact absurd rfl hc
                  · exact I.bcast _ _ hready
              have : m < (s.posted q).length := this
              omega
            | @coll i _ _ _ hi => exact ⟨i, by simpa using hi _, by simp at hi' ⊢; omega⟩
          · exact ⟨i, by simpa [hrt] using hi, by simpa [hrt] using hi'⟩
  obtain ⟨-, -, i, hi, -⟩ := key
  constructor
  · intro a ha
    rw [ha] at hi
    cases hi
  · intro e he
    rw [he] at hi
    cases hi

theorem fails_bind {f : α → Proc V E β} {m : ℕ} {p : Proc V E α} (h : Fails m p) : Fails m (p.bind f) := by
  induction h with
  | raise e => exact .raise e
  | act _ ih => exact .act ih
  | coll _ ih => exact .coll ih

theorem needs_bind {q : R} {f : α → Proc V E β} {m : ℕ} {p : Proc V E α} (h : Needs root q m p) : Needs root q m (p.bind f) := by
  induction h with
  | act _ ih => exact .act ih
  | zero h => exact .zero h
  | coll _ ih => exact .coll ih

end Verif.Mpi

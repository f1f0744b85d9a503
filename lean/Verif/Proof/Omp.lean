import Verif.Spec.Omp
import Mathlib.Data.DFinsupp.WellFounded
import Mathlib.SetTheory.Ordinal.Rank

/-! # Parallel loops: independence of the interleaving -/

namespace Verif.Omp

variable {L V T ι : Type*} [DecidableEq L] [DecidableEq T]

theorem run_frame {R W : Set L} : ∀ {p : Prog L V} {m : L → V} {l : L}, p.Within R W → l ∉ W → p.run m l = m l
  | .done, _, _, _, _ => rfl
  | .load _ k, m, _, h, hl => run_frame (p := k (m _)) (h.2 _) hl
  | .store l' v k, m, l, h, hl => by
    change k.run _ l = _
    rw [run_frame h.2 hl, Function.update_of_ne]
    rintro rfl
    exact hl h.1

theorem run_congr {R W : Set L} : ∀ {p : Prog L V} {m m' : L → V}, p.Within R W → (∀ l ∈ R ∪ W, m l = m' l) →
    ∀ l ∈ R ∪ W, p.run m l = p.run m' l
  | .done, _, _, _, h => h
  | .load l k, m, m', hw, h => by
    intro l' hl'
    change (k (m l)).run m l' = (k (m' l)).run m' l'
    rw [← h l (Or.inl hw.1)]
    exact run_congr (hw.2 _) h l' hl'
  | .store l v k, m, m', hw, h => run_congr (p := k) hw.2 fun l' hl' => by
      by_cases e : l' = l
      · subst e; simp
      · simp [Function.update_of_ne e, h l' hl']

theorem run_seq : ∀ (p q : Prog L V) (m : L → V), (p.seq q).run m = q.run (p.run m)
  | .done, _, _ => rfl
  | .load l k, q, m => run_seq (k (m l)) q m
  | .store l v k, q, m => run_seq k q _

theorem run_all (ps : List (Prog L V)) (m : L → V) : (Prog.all ps).run m = ps.foldl (fun m p => p.run m) m := by
  induction ps generalizing m with
  | nil => rfl
  | cons p ps ih =>
    change (p.seq (Prog.all ps)).run m = _
    rw [run_seq, ih]
    rfl

theorem within_mono {R W R' W' : Set L} (hR : R ⊆ R') (hW : W ⊆ W') : ∀ {p : Prog L V}, p.Within R W → p.Within R' W'
  | .done, _ => trivial
  | .load _ _, h => ⟨hR h.1, fun v => within_mono hR hW (h.2 v)⟩
  | .store _ _ _, h => ⟨hW h.1, within_mono hR hW h.2⟩

theorem within_seq {R W : Set L} {q : Prog L V} (hq : q.Within R W) : ∀ {p : Prog L V}, p.Within R W → (p.seq q).Within R W
  | .done, _ => hq
  | .load _ _, h => ⟨h.1, fun v => within_seq hq (h.2 v)⟩
  | .store _ _ _, h => ⟨h.1, within_seq hq h.2⟩

theorem within_all {R W : Set L} {ps : List (Prog L V)} (h : ∀ p ∈ ps, p.Within R W) : (Prog.all ps).Within R W := by
  induction ps with
  | nil => trivial
  | cons p ps ih => exact within_seq (ih fun q hq => h q (by simp [hq])) (h p (by simp))

/-- What holds at every moment of an execution of independent threads. -/
theorem exec_inv {R W : T → Set L} {P : T → Prog L V} (hw : ∀ t, (P t).Within (R t) (W t))
    (hd : ∀ s t, s ≠ t → Disjoint (W s) (R t ∪ W t)) {m0 : L → V} {st : (T → Prog L V) × (L → V)}
    (h : Relation.ReflTransGen Step (P, m0) st) :
    (∀ t, (st.1 t).Within (R t) (W t)) ∧ (∀ t, ∀ l ∈ R t ∪ W t, (st.1 t).run st.2 l = (P t).run m0 l) ∧
      ∀ l, (∀ t, l ∉ W t) → st.2 l = m0 l := by
  induction h with
  | refl => exact ⟨hw, fun _ _ _ => rfl, fun _ _ => rfl⟩
  | tail _ hs ih =>
    obtain ⟨i1, i2, i3⟩ := ih
    cases hs with
    | @load p m t l k hp =>
      have hwt := i1 t
      simp only at hwt i1 i2 i3 ⊢
      rw [hp] at hwt
      refine ⟨fun s => ?_, fun s l' hl' => ?_, i3⟩
      · by_cases e : s = t
        · subst e; rw [Function.update_self]; exact hwt.2 _
        · rw [Function.update_of_ne e]; exact i1 s
      · by_cases e : s = t
        · subst e
          rw [Function.update_self, ← i2 s l' hl', hp]
          rfl
        · rw [Function.update_of_ne e]; exact i2 s l' hl'
    | @store p m t l v k hp =>
      have hwt := i1 t
      simp only at hwt i1 i2 i3 ⊢
      rw [hp] at hwt
      refine ⟨fun s => ?_, fun s l' hl' => ?_, fun l' hl' => ?_⟩
      · by_cases e : s = t
        · subst e; rw [Function.update_self]; exact hwt.2
        · rw [Function.update_of_ne e]; exact i1 s
      · by_cases e : s = t
        · subst e
          rw [Function.update_self, ← i2 s l' hl', hp]
          rfl
        · rw [Function.update_of_ne e, ← i2 s l' hl']
          refine run_congr (i1 s) (fun l'' hl'' => ?_) l' hl'
          rw [Function.update_of_ne]
          rintro rfl
          exact Set.disjoint_left.1 (hd t s (Ne.symm e)) hwt.1 hl''
      · rw [Function.update_of_ne, i3 l' hl']
        rintro rfl
        exact hl' t hwt.1

section Loop

variable {R W : ι → Set L} {body : ι → Prog L V}

theorem serial_other (its : List ι) (hw : ∀ i ∈ its, (body i).Within (R i) (W i)) (m : L → V) (l : L) (hl : ∀ i ∈ its, l ∉ W i) :
    serialDo body its m l = m l := by
  induction its generalizing m with
  | nil => rfl
  | cons i its ih =>
    change serialDo body its ((body i).run m) l = m l
    rw [ih (fun j hj => hw j (by simp [hj])) _ (fun j hj => hl j (by simp [hj])), run_frame (hw i (by simp)) (hl i (by simp))]

theorem serial_value (its : List ι) (hn : its.Nodup) (hw : ∀ i ∈ its, (body i).Within (R i) (W i)) (hr : RaceFree its R W) (m : L → V)
    (i : ι) (hi : i ∈ its) (l : L) (hl : l ∈ W i) : serialDo body its m l = (body i).run m l := by
  induction its generalizing m with
  | nil => simp at hi
  | cons j its ih =>
    change serialDo body its ((body j).run m) l = (body i).run m l
    obtain ⟨hj, hn'⟩ := List.nodup_cons.1 hn
    rcases List.mem_cons.1 hi with rfl | hi'
    · refine serial_other its (fun k hk => hw k (by simp [hk])) _ l fun k hk hl' => ?_
      exact Set.disjoint_left.1 (hr k (by simp [hk]) i (by simp) (by rintro rfl; exact hj hk)) hl' (Or.inr hl)
    · rw [ih hn' (fun k hk => hw k (by simp [hk])) (fun a ha b hb => hr a (by simp [ha]) b (by simp [hb])) _ hi']
      refine run_congr (hw i hi) (fun l' hl' => run_frame (hw j (by simp)) fun h => ?_) l (Or.inr hl)
      exact Set.disjoint_left.1 (hr j (by simp) i hi (by rintro rfl; exact hj hi')) h hl'

theorem thread_run (its : List ι) (m : L → V) : (Prog.all (its.map body)).run m = serialDo body its m := by
  rw [run_all, List.foldl_map]
  rfl

/-- Every execution of a loop without races ends with the memory of the loop done by one thread. -/
theorem parallel_serial [Fintype T] {chunks : T → List ι} {its : List ι} (hc : Distributed chunks its) (hn : its.Nodup)
    (hw : ∀ i ∈ its, (body i).Within (R i) (W i)) (hr : RaceFree its R W) {m m' : L → V} (h : ParallelDo body chunks m m') :
    m' = serialDo body its m := by
  have hmem : ∀ t, ∀ i ∈ chunks t, i ∈ its := fun t i hi => hc.mem_iff.1 (List.mem_flatMap.2 ⟨t, by simp, hi⟩)
  have hnd := hc.nodup_iff.2 hn
  rw [List.nodup_flatMap] at hnd
  have hdis : ∀ s t, s ≠ t → ∀ i ∈ chunks s, i ∉ chunks t := by
    intro s t hst i hi hi'
    haveI : Std.Symm (Function.onFun List.Disjoint chunks) := ⟨fun a b hab => List.Disjoint.symm hab⟩
    exact hnd.2.forall (by simp) (by simp) hst hi hi'
  have key := exec_inv (R := fun t => {l | ∃ i ∈ chunks t, l ∈ R i}) (W := fun t => {l | ∃ i ∈ chunks t, l ∈ W i})
    (P := fun t => Prog.all ((chunks t).map body)) (fun t => within_all (by
      intro p hp
      obtain ⟨i, hi, rfl⟩ := List.mem_map.1 hp
      refine within_mono ?_ ?_ (hw i (hmem t i hi))
      · intro l hl; exact ⟨i, hi, hl⟩
      · intro l hl; exact ⟨i, hi, hl⟩)) (by
      intro s t hst
      rw [Set.disjoint_left]
      rintro l ⟨i, hi, hl⟩ h'
      have hij : ∀ j ∈ chunks t, l ∉ R j ∪ W j := fun j hj =>
        Set.disjoint_left.1 (hr i (hmem s i hi) j (hmem t j hj) (by rintro rfl; exact hdis s t hst i hi hj)) hl
      rcases h' with ⟨j, hj, hl'⟩ | ⟨j, hj, hl'⟩
      · exact hij j hj (Or.inl hl')
      · exact hij j hj (Or.inr hl')) h
  obtain ⟨-, k2, k3⟩ := key
  funext l
  by_cases hl : ∃ i ∈ its, l ∈ W i
  · obtain ⟨i, hi, hl⟩ := hl
    obtain ⟨t, -, ht⟩ := List.mem_flatMap.1 (hc.mem_iff.2 hi)
    rw [serial_value its hn hw hr m i hi l hl]
    have := k2 t l (Or.inr ⟨i, ht, hl⟩)
    rw [thread_run, serial_value (chunks t) (hnd.1 t (by simp)) (fun j hj => hw j (hmem t j hj))
      (fun a ha b hb => hr a (hmem t a ha) b (hmem t b hb)) m i ht l hl] at this
    exact this
  · rw [serial_other its hw m l fun i hi h => hl ⟨i, hi, h⟩]
    exact k3 l fun t ⟨i, hi, h⟩ => hl ⟨i, hmem t i hi, h⟩

/-- The value of an element after the loop. -/
theorem parallel_value [Fintype T] {chunks : T → List ι} {its : List ι} (hc : Distributed chunks its) (hn : its.Nodup)
    (hw : ∀ i ∈ its, (body i).Within (R i) (W i)) (hr : RaceFree its R W) {m m' : L → V} (h : ParallelDo body chunks m m') :
    (∀ i ∈ its, ∀ l ∈ W i, m' l = (body i).run m l) ∧ ∀ l, (∀ i ∈ its, l ∉ W i) → m' l = m l := by
  rw [parallel_serial hc hn hw hr h]
  exact ⟨fun i hi l hl => serial_value its hn hw hr m i hi l hl, fun l hl => serial_other its hw m l hl⟩

end Loop

/-! ## Executions end -/

/-- `q` is what is left of `p` after its first instruction. -/
inductive After : Prog L V → Prog L V → Prop
  | load (l : L) (k : V → Prog L V) (v : V) : After (k v) (.load l k)
  | store (l : L) (v : V) (k : Prog L V) : After k (.store l v k)

omit [DecidableEq L] in
theorem after_wf : WellFounded (After (L := L) (V := V)) := by
  refine ⟨fun p => ?_⟩
  induction p with
  | done => exact ⟨_, fun q h => by cases h⟩
  | load l k ih => exact ⟨_, fun q h => by cases h with | load _ _ v => exact ih v⟩
  | store l v k ih => exact ⟨_, fun q h => by cases h with | store _ _ _ => exact ih⟩

/-- There is no infinite execution. -/
theorem step_wf [Finite T] : WellFounded (fun a b : (T → Prog L V) × (L → V) => Step b a) := by
  have hr := after_wf (L := L) (V := V)
  haveI : IsWellFounded (Prog L V) After := ⟨hr⟩
  let f : (T → Prog L V) × (L → V) → (T → Ordinal) := fun s t => IsWellFounded.rank After (s.1 t)
  refine Subrelation.wf (r := InvImage (· < ·) f) ?_ (InvImage.wf f wellFounded_lt)
  intro a b h
  have key : ∀ (p : T → Prog L V) (t : T) (q : Prog L V), After q (p t) →
      (fun s => IsWellFounded.rank After (Function.update p t q s)) < fun s => IsWellFounded.rank After (p s) := by
    intro p t q hq
    refine Pi.lt_def.2 ⟨fun s => ?_, t, ?_⟩
    · simp only
      by_cases e : s = t
      · subst e
        rw [Function.update_self]
        exact (IsWellFounded.rank_lt_of_rel hq).le
      · rw [Function.update_of_ne e]
    · rw [Function.update_self]
      exact IsWellFounded.rank_lt_of_rel hq
  cases h with
  | @load p m t l k hp => exact key p t _ (hp ▸ After.load l k _)
  | @store p m t l v k hp => exact key p t _ (hp ▸ After.store l v k)

/-- An execution that has not ended can go on. -/
theorem step_progress (p : T → Prog L V) (m : L → V) (h : p ≠ fun _ => .done) : ∃ s, Step (p, m) s := by
  by_contra hc
  refine h (funext fun t => ?_)
  match hp : p t with
  | .done => rfl
  | .load l k => exact absurd ⟨_, Step.load t hp⟩ hc
  | .store l v k => exact absurd ⟨_, Step.store t hp⟩ hc

/-- Every execution can be brought to its end. -/
theorem exec_end [Finite T] (s : (T → Prog L V) × (L → V)) : ∃ m', Relation.ReflTransGen Step s (fun _ => .done, m') := by
  induction s using (step_wf (L := L) (V := V) (T := T)).induction with
  | h s ih =>
    obtain ⟨p, m⟩ := s
    by_cases h : p = fun _ => .done
    · subst h; exact ⟨m, .refl⟩
    · obtain ⟨s', hs'⟩ := step_progress p m h
      obtain ⟨m', hm'⟩ := ih s' hs'
      exact ⟨m', hm'.head hs'⟩

end Verif.Omp

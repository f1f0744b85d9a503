import Verif.Spec.Utils
import Mathlib.Algebra.BigOperators.Intervals
import Mathlib.Tactic.Linarith

/-! # Proofs about timers -/

namespace Verif.Timing

open scoped Classical

variable {S : Type*}

theorem get_old (h : List (Op S)) (o : Op S) {i : ℕ} (hi : i < h.length) : (h ++ [o])[i]? = h[i]? := by
  rw [List.getElem?_append_left hi]

theorem get_new (h : List (Op S)) (o : Op S) : (h ++ [o])[h.length]? = some o := by
  rw [List.getElem?_append_right (le_refl _)]; simp

theorem get_out (h : List (Op S)) {i : ℕ} (hi : h.length ≤ i) : h[i]? = none :=
  List.getElem?_eq_none hi

theorem isTic_lt {h : List (Op S)} {s : S} {i : ℕ} (hi : IsTic h s i) : i < h.length := by
  obtain ⟨t, ht⟩ := hi
  by_contra hc
  rw [get_out h (by omega)] at ht
  cases ht

theorem isToc_lt {h : List (Op S)} {s : S} {i : ℕ} (hi : IsToc h s i) : i < h.length := by
  obtain ⟨t, ht⟩ := hi
  by_contra hc
  rw [get_out h (by omega)] at ht
  cases ht

theorem timeAt_old (h : List (Op S)) (o : Op S) {i : ℕ} (hi : i < h.length) :
    timeAt (h ++ [o]) i = timeAt h i := by
  unfold timeAt; rw [get_old h o hi]

theorem timeAt_new (h : List (Op S)) (o : Op S) : timeAt (h ++ [o]) h.length = o.time := by
  unfold timeAt; rw [get_new]; rfl

theorem isTic_old (h : List (Op S)) (o : Op S) (s : S) {i : ℕ} (hi : i < h.length) :
    IsTic (h ++ [o]) s i ↔ IsTic h s i := by
  unfold IsTic; rw [get_old h o hi]

theorem isToc_old (h : List (Op S)) (o : Op S) (s : S) {i : ℕ} (hi : i < h.length) :
    IsToc (h ++ [o]) s i ↔ IsToc h s i := by
  unfold IsToc; rw [get_old h o hi]

theorem isTic_new (h : List (Op S)) (o : Op S) (s : S) :
    IsTic (h ++ [o]) s h.length ↔ ∃ t, o = .tic s t := by
  unfold IsTic; rw [get_new]; simp

theorem isToc_new (h : List (Op S)) (o : Op S) (s : S) :
    IsToc (h ++ [o]) s h.length ↔ ∃ t, o = .toc s t := by
  unfold IsToc; rw [get_new]; simp

theorem quiet_old (h : List (Op S)) (o : Op S) (s : S) {i j : ℕ} (hj : j ≤ h.length) :
    Quiet (h ++ [o]) s i j ↔ Quiet h s i j := by
  unfold Quiet
  constructor
  · intro H k h1 h2 p hp
    exact H k h1 h2 p (by rw [get_old h o (by omega)]; exact hp)
  · intro H k h1 h2 p hp
    exact H k h1 h2 p (by rw [get_old h o (by omega)] at hp; exact hp)

theorem interval_old (h : List (Op S)) (o : Op S) (s : S) {i j : ℕ} (hj : j < h.length) :
    Interval (h ++ [o]) s i j ↔ Interval h s i j := by
  unfold Interval
  constructor
  · rintro ⟨h1, h2, h3, h4⟩
    exact ⟨h1, (isTic_old h o s (by omega)).1 h2, (isToc_old h o s hj).1 h3, (quiet_old h o s (by omega)).1 h4⟩
  · rintro ⟨h1, h2, h3, h4⟩
    exact ⟨h1, (isTic_old h o s (by omega)).2 h2, (isToc_old h o s hj).2 h3, (quiet_old h o s (by omega)).2 h4⟩

theorem interval_new (h : List (Op S)) (o : Op S) (s : S) (i : ℕ) :
    Interval (h ++ [o]) s i h.length ↔ (∃ t, o = .toc s t) ∧ Running h s i := by
  unfold Interval Running
  constructor
  · rintro ⟨h1, h2, h3, h4⟩
    exact ⟨(isToc_new h o s).1 h3, (isTic_old h o s h1).1 h2, (quiet_old h o s (le_refl _)).1 h4⟩
  · rintro ⟨h1, h2, h3⟩
    have := isTic_lt h2
    exact ⟨this, (isTic_old h o s this).2 h2, (isToc_new h o s).2 h1, (quiet_old h o s (le_refl _)).2 h3⟩

theorem running_old (h : List (Op S)) (o : Op S) (s : S) {i : ℕ} (hi : i < h.length) :
    Running (h ++ [o]) s i ↔ Running h s i ∧ ¬ o.Concerns s := by
  unfold Running
  constructor
  · rintro ⟨h1, h2⟩
    refine ⟨⟨(isTic_old h o s hi).1 h1, (quiet_old h o s (le_refl _)).1 ?_⟩, ?_⟩
    · intro k hk1 hk2
      exact h2 k hk1 (by rw [List.length_append]; omega)
    · exact h2 h.length hi (by simp) o (get_new h o)
  · rintro ⟨⟨h1, h2⟩, h3⟩
    refine ⟨(isTic_old h o s hi).2 h1, ?_⟩
    intro k hk1 hk2 p hp
    rw [List.length_append, List.length_singleton] at hk2
    rcases Nat.lt_or_ge k h.length with hk | hk
    · exact (quiet_old h o s (le_refl _)).2 h2 k hk1 hk p hp
    · have : k = h.length := by omega
      subst this
      rw [get_new, Option.some.injEq] at hp
      exact hp ▸ h3

theorem running_new (h : List (Op S)) (o : Op S) (s : S) :
    Running (h ++ [o]) s h.length ↔ ∃ t, o = .tic s t := by
  unfold Running
  rw [isTic_new]
  constructor
  · exact fun H => H.1
  · refine fun H => ⟨H, ?_⟩
    intro k hk1 hk2 p hp
    rw [List.length_append, List.length_singleton] at hk2
    omega

theorem running_step (h : List (Op S)) (o : Op S) (s : S) (i : ℕ) :
    Running (h ++ [o]) s i ↔ (Running h s i ∧ ¬ o.Concerns s) ∨ (i = h.length ∧ ∃ t, o = .tic s t) := by
  rcases Nat.lt_trichotomy i h.length with hi | hi | hi
  · rw [running_old h o s hi]
    constructor
    · exact Or.inl
    · rintro (H | ⟨H, _⟩)
      · exact H
      · omega
  · subst hi
    rw [running_new]
    constructor
    · exact fun H => Or.inr ⟨rfl, H⟩
    · rintro (⟨H, _⟩ | ⟨_, H⟩)
      · exact absurd (isTic_lt H.1) (by omega)
      · exact H
  · constructor
    · intro H
      have := isTic_lt H.1
      rw [List.length_append, List.length_singleton] at this
      omega
    · rintro (⟨H, _⟩ | ⟨H, _⟩)
      · exact absurd (isTic_lt H.1) (by omega)
      · omega

/-- At most one interval of a slot is open. -/
theorem running_unique {h : List (Op S)} {s : S} {i j : ℕ} (hi : Running h s i) (hj : Running h s j) : i = j := by
  have key : ∀ {i j : ℕ}, Running h s i → Running h s j → ¬ i < j := by
    intro i j hi hj hlt
    obtain ⟨t, ht⟩ := hj.1
    exact hi.2 j hlt (isTic_lt hj.1) _ ht rfl
  rcases Nat.lt_trichotomy i j with hlt | he | hlt
  · exact absurd hlt (key hi hj)
  · exact he
  · exact absurd hlt (key hj hi)

theorem live_old (h : List (Op S)) (o : Op S) {i : ℕ} (hi : i < h.length) :
    Live (h ++ [o]) i ↔ Live h i ∧ o ≠ .reset := by
  unfold Live
  constructor
  · intro H
    refine ⟨fun k hk => ?_, ?_⟩
    · rcases Nat.lt_or_ge k h.length with hl | hl
      · have := H k hk
        rwa [get_old h o hl] at this
      · rw [get_out h hl]; simp
    · have := H h.length hi
      rwa [get_new, ne_eq, Option.some.injEq] at this
  · rintro ⟨H, ho⟩ k hk
    rcases Nat.lt_trichotomy k h.length with hl | hl | hl
    · rw [get_old h o hl]; exact H k hk
    · subst hl; rw [get_new]; simpa using ho
    · rw [get_out _ (by rw [List.length_append, List.length_singleton]; omega)]; simp

theorem live_new (h : List (Op S)) {i : ℕ} (hi : h.length ≤ i + 1) : Live h i := by
  intro k hk
  rw [get_out h (by omega)]; simp

/-- A running interval has not been discarded. -/
theorem running_live {h : List (Op S)} {s : S} {i : ℕ} (hi : Running h s i) : Live h i := by
  intro k hk hr
  have hl : k < h.length := by
    by_contra hc
    rw [get_out h (by omega)] at hr
    cases hr
  exact hi.2 k hk hl _ hr trivial

/-! ## The sum of the intervals -/

theorem spent_nil (s : S) : spent ([] : List (Op S)) s = 0 := by simp [spent]

theorem spent_step (h : List (Op S)) (o : Op S) (s : S) :
    spent (h ++ [o]) s = (if o = .reset then 0 else spent h s) +
      ∑ i ∈ Finset.range h.length, if (∃ t, o = .toc s t) ∧ Running h s i then o.time - timeAt h i else 0 := by
  unfold spent
  rw [List.length_append, List.length_singleton, Finset.sum_range_succ]
  congr 1
  · split_ifs with ho
    · refine Finset.sum_eq_zero (fun j hj => Finset.sum_eq_zero (fun i _ => if_neg ?_))
      rintro ⟨_, hl⟩
      exact ((live_old h o (Finset.mem_range.1 hj)).1 hl).2 ho
    · refine Finset.sum_congr rfl (fun j hj => Finset.sum_congr rfl (fun i hi => ?_))
      have hj' := Finset.mem_range.1 hj
      have hi' := Finset.mem_range.1 hi
      rw [interval_old h o s hj', live_old h o hj', timeAt_old h o hj', timeAt_old h o (by omega)]
      simp [ho]
  · refine Finset.sum_congr rfl (fun i hi => ?_)
    have hi' := Finset.mem_range.1 hi
    rw [interval_new, timeAt_new, timeAt_old h o hi']
    have : Live (h ++ [o]) h.length := live_new _ (by simp)
    simp [this]

/-- Calls other than a `toc` of the slot and a reset leave the time spent alone. -/
theorem spent_other (h : List (Op S)) (o : Op S) (s : S) (h1 : o ≠ .reset) (h2 : ∀ t, o ≠ .toc s t) :
    spent (h ++ [o]) s = spent h s := by
  rw [spent_step, if_neg h1]
  rw [Finset.sum_eq_zero (fun i _ => if_neg ?_), add_zero]
  rintro ⟨⟨t, ht⟩, _⟩
  exact h2 t ht

theorem spent_reset (h : List (Op S)) (s : S) : spent (h ++ [.reset]) s = 0 := by
  rw [spent_step, if_pos rfl]
  rw [Finset.sum_eq_zero (fun i _ => if_neg ?_), add_zero]
  rintro ⟨⟨t, ht⟩, _⟩
  cases ht

theorem spent_toc_idle (h : List (Op S)) (s : S) (t : ℝ) (hn : ∀ i, ¬ Running h s i) :
    spent (h ++ [.toc s t]) s = spent h s := by
  rw [spent_step, if_neg (by simp)]
  rw [Finset.sum_eq_zero (fun i _ => if_neg ?_), add_zero]
  rintro ⟨_, H⟩
  exact hn i H

theorem spent_toc (h : List (Op S)) (s : S) (t : ℝ) (i : ℕ) (hr : Running h s i) :
    spent (h ++ [.toc s t]) s = spent h s + (t - timeAt h i) := by
  rw [spent_step, if_neg (by simp)]
  congr 1
  rw [Finset.sum_eq_single i]
  · rw [if_pos ⟨⟨t, rfl⟩, hr⟩]; rfl
  · intro j _ hj
    exact if_neg (fun H => hj (running_unique H.2 hr))
  · intro hi
    exact absurd (Finset.mem_range.2 (isTic_lt hr.1)) hi

/-! ## Which slots are used -/

theorem used_step (h : List (Op S)) (o : Op S) (s : S) :
    Used (h ++ [o]) s ↔ (Used h s ∧ o ≠ .reset) ∨ ∃ t, o = .tic s t := by
  constructor
  · rintro ⟨i, h1, h2⟩
    have hlt := isTic_lt h1
    rw [List.length_append, List.length_singleton] at hlt
    rcases Nat.lt_or_ge i h.length with hi | hi
    · have := (live_old h o hi).1 h2
      exact Or.inl ⟨⟨i, (isTic_old h o s hi).1 h1, this.1⟩, this.2⟩
    · have : i = h.length := by omega
      subst this
      exact Or.inr ((isTic_new h o s).1 h1)
  · rintro (⟨⟨i, h1, h2⟩, h3⟩ | H)
    · have hi := isTic_lt h1
      exact ⟨i, (isTic_old h o s hi).2 h1, (live_old h o hi).2 ⟨h2, h3⟩⟩
    · exact ⟨h.length, (isTic_new h o s).2 H, live_new _ (by simp)⟩

theorem isLast_old (h : List (Op S)) (o : Op S) (s : S) (x : ℝ) (hx : IsLast h s x) (h1 : o ≠ .reset)
    (h2 : (∀ t, o ≠ .toc s t) ∨ ∀ i, ¬ Running h s i) : IsLast (h ++ [o]) s x := by
  obtain ⟨i, j, hI, hL, rfl, hl⟩ := hx
  have hj := isToc_lt hI.2.2.1
  refine ⟨i, j, (interval_old h o s hj).2 hI, (live_old h o hj).2 ⟨hL, h1⟩, ?_, ?_⟩
  · rw [timeAt_old h o hj, timeAt_old h o (by have := hI.1; omega)]
  · intro i' j' hlt H
    have hlt' := isToc_lt H.2.2.1
    rw [List.length_append, List.length_singleton] at hlt'
    rcases Nat.lt_or_ge j' h.length with hj' | hj'
    · exact hl i' j' hlt ((interval_old h o s hj').1 H)
    · have : j' = h.length := by omega
      subst this
      obtain ⟨⟨t, ht⟩, hr⟩ := (interval_new h o s i').1 H
      rcases h2 with h2 | h2
      · exact h2 t ht
      · exact h2 i' hr

theorem isLast_new (h : List (Op S)) (s : S) (t : ℝ) (i : ℕ) (hr : Running h s i) :
    IsLast (h ++ [.toc s t]) s (t - timeAt h i) := by
  refine ⟨i, h.length, (interval_new h _ s i).2 ⟨⟨t, rfl⟩, hr⟩, live_new _ (by simp), ?_, ?_⟩
  · rw [timeAt_new, timeAt_old h _ (isTic_lt hr.1)]; rfl
  · intro i' j' hlt H
    have hlt' := isToc_lt H.2.2.1
    rw [List.length_append, List.length_singleton] at hlt'
    omega

/-- The length of the last interval is determined by the history. -/
theorem isLast_unique {h : List (Op S)} {s : S} {x y : ℝ} (hx : IsLast h s x) (hy : IsLast h s y) : x = y := by
  obtain ⟨i, j, hI, hL, rfl, hl⟩ := hx
  obtain ⟨i', j', hI', hL', rfl, hl'⟩ := hy
  have hj : j = j' := by
    rcases Nat.lt_trichotomy j j' with hlt | he | hlt
    · exact absurd hI' (hl i' j' hlt)
    · exact he
    · exact absurd hI (hl' i j hlt)
  subst hj
  have key : ∀ {i i' : ℕ}, Interval h s i j → Interval h s i' j → ¬ i < i' := by
    intro i i' hI hI' hlt
    obtain ⟨t, ht⟩ := hI'.2.1
    exact hI.2.2.2 i' hlt hI'.1 _ ht rfl
  have hi : i = i' := by
    rcases Nat.lt_trichotomy i i' with hlt | he | hlt
    · exact absurd hlt (key hI hI')
    · exact he
    · exact absurd hlt (key hI' hI)
  rw [hi]

theorem firstUse_old (h : List (Op S)) (o : Op S) (s : S) (i : ℕ) (hf : FirstUse h s i) (ho : o ≠ .reset) :
    FirstUse (h ++ [o]) s i := by
  obtain ⟨h1, h2, h3⟩ := hf
  have hi := isTic_lt h1
  refine ⟨(isTic_old h o s hi).2 h1, (live_old h o hi).2 ⟨h2, ho⟩, ?_⟩
  intro k hk hk2 hL
  exact h3 k hk ((isTic_old h o s (by omega)).1 hk2) ((live_old h o (by omega)).1 hL).1

theorem firstUse_new (h : List (Op S)) (s : S) (t : ℝ) (hf : ¬ Used h s) :
    FirstUse (h ++ [.tic s t]) s h.length := by
  refine ⟨(isTic_new h _ s).2 ⟨t, rfl⟩, live_new _ (by simp), ?_⟩
  intro k hk hk2 hL
  exact hf ⟨k, (isTic_old h _ s hk).1 hk2, ((live_old h _ hk).1 hL).1⟩

/-! ## The invariant of a timer -/

variable [DecidableEq S]

/-- What the tables of a timer hold after a history. -/
structure TInv (h : List (Op S)) (T : Timer S) : Prop where
  wf : T.startTime.WF
  used : ∀ s, s ∈ T.startTime.keys ↔ Used h s
  tracked : ∀ s, T.trackStatus.get? s = some true ↔ ∃ i, Running h s i
  known : ∀ s, (∃ b, T.trackStatus.get? s = some b) ↔ Used h s
  start : ∀ s i, Running h s i → T.startTime.get? s = some (timeAt h i)
  last : ∀ s, T.trackStatus.get? s = some false → ∃ x, T.timeUsage.get? s = some x ∧ IsLast h s x
  total : ∀ s, (T.totalTimeUsage.get? s).getD 0 = spent h s
  totalKnown : ∀ s, T.trackStatus.get? s = some false → ∃ x, T.totalTimeUsage.get? s = some x
  order : T.startTime.keys.Pairwise fun a b => ∃ i j, FirstUse h a i ∧ FirstUse h b j ∧ i < j

theorem reportLoop_eq (T : Timer S) (l : List S) (hl : ∀ s ∈ l, ∃ b, T.trackStatus.get? s = some b)
    (hu : ∀ s, T.trackStatus.get? s = some false → ∃ x, T.timeUsage.get? s = some x) :
    T.reportLoop l =
      let p := l.takeWhile fun s => decide (T.trackStatus.get? s = some false)
      (p.map fun s => (s, (T.timeUsage.get? s).getD 0),
        match l.dropWhile fun s => decide (T.trackStatus.get? s = some false) with
        | [] => .ok ()
        | s :: _ => .error (.notEnded s)) := by
  induction l with
  | nil => rfl
  | cons s l ih =>
    obtain ⟨b, hb⟩ := hl s (by simp)
    have ih' := ih (fun s' hs' => hl s' (by simp [hs']))
    cases b with
    | true => simp [Timer.reportLoop, hb]
    | false =>
      obtain ⟨x, hx⟩ := hu s hb
      rw [Timer.reportLoop, hb]
      dsimp only
      rw [hx]
      dsimp only
      rw [ih']
      simp [hb, hx]

theorem totalLoop_eq (T : Timer S) (l : List S) (hl : ∀ s ∈ l, ∃ b, T.trackStatus.get? s = some b)
    (hu : ∀ s, T.trackStatus.get? s = some false → ∃ x, T.totalTimeUsage.get? s = some x) :
    T.totalLoop l =
      let p := l.takeWhile fun s => decide (T.trackStatus.get? s = some false)
      (T, p.map fun s => (s, (T.totalTimeUsage.get? s).getD 0),
        match l.dropWhile fun s => decide (T.trackStatus.get? s = some false) with
        | [] => .ok ()
        | s :: _ => .error (.notEnded s)) := by
  induction l with
  | nil => rfl
  | cons s l ih =>
    obtain ⟨b, hb⟩ := hl s (by simp)
    have ih' := ih (fun s' hs' => hl s' (by simp [hs']))
    cases b with
    | true => simp [Timer.totalLoop, hb]
    | false =>
      obtain ⟨x, hx⟩ := hu s hb
      rw [Timer.totalLoop, hb]
      dsimp only
      rw [hx]
      dsimp only
      rw [ih']
      simp [hb, hx]

theorem TInv.reportTotal_state {h : List (Op S)} {T : Timer S} (I : TInv h T) : T.reportTotal.1 = T := by
  unfold Timer.reportTotal
  split_ifs with h1
  · rw [totalLoop_eq T _ (fun s hs => (I.known s).2 ((I.used s).1 hs)) I.totalKnown]
  · rfl

theorem inv_init : TInv ([] : List (Op S)) Timer.init := by
  have nu : ∀ s, ¬ Used ([] : List (Op S)) s := by
    rintro s ⟨i, h1, _⟩
    exact absurd (isTic_lt h1) (by simp)
  have nr : ∀ s i, ¬ Running ([] : List (Op S)) s i := by
    rintro s i h1
    exact absurd (isTic_lt h1.1) (by simp)
  refine ⟨PyDict.WF_nil, ?_, ?_, ?_, ?_, ?_, ?_, ?_, ?_⟩
  · intro s; simp [Timer.init, nu s]
  · intro s; simp [Timer.init, nr s]
  · intro s; simp [Timer.init, nu s]
  · intro s i hr; exact absurd hr (nr s i)
  · intro s hs; simp [Timer.init] at hs
  · intro s; simp [Timer.init, spent_nil]
  · intro s hs; simp [Timer.init] at hs
  · simp [Timer.init]

theorem inv_reset {h : List (Op S)} : TInv (h ++ [.reset]) (Timer.init : Timer S) := by
  have nu : ∀ s, ¬ Used (h ++ [.reset]) s := by
    intro s H
    rcases (used_step h _ s).1 H with ⟨_, h2⟩ | ⟨t, ht⟩
    · exact h2 rfl
    · cases ht
  have nr : ∀ s i, ¬ Running (h ++ [.reset]) s i := by
    intro s i hr
    exact nu s ⟨i, hr.1, running_live hr⟩
  refine ⟨PyDict.WF_nil, ?_, ?_, ?_, ?_, ?_, ?_, ?_, ?_⟩
  · intro s; simp [Timer.init, nu s]
  · intro s; simp [Timer.init, nr s]
  · intro s; simp [Timer.init, nu s]
  · intro s i hr; exact absurd hr (nr s i)
  · intro s hs; simp [Timer.init] at hs
  · intro s; simp [Timer.init, spent_reset]
  · intro s hs; simp [Timer.init] at hs
  · simp [Timer.init]

/-- Calls which concern no slot. -/
theorem inv_skip {h : List (Op S)} {T : Timer S} (I : TInv h T) (o : Op S) (ho : ∀ s, ¬ o.Concerns s) :
    TInv (h ++ [o]) T := by
  have hr : o ≠ .reset ∨ IsEmpty S := by
    by_cases he : IsEmpty S
    · exact Or.inr he
    · rw [not_isEmpty_iff] at he
      obtain ⟨s⟩ := he
      refine Or.inl ?_
      rintro rfl
      exact ho s trivial
  rcases hr with hr | hr
  swap
  · refine ⟨I.wf, fun s => isEmptyElim s, fun s => isEmptyElim s, fun s => isEmptyElim s, fun s => isEmptyElim s,
      fun s => isEmptyElim s, fun s => isEmptyElim s, fun s => isEmptyElim s, ?_⟩
    exact I.order.imp (fun {a} => isEmptyElim a)
  have ht : ∀ s t, o ≠ .tic s t := by rintro s t rfl; exact ho s rfl
  have hc : ∀ s t, o ≠ .toc s t := by rintro s t rfl; exact ho s rfl
  have run : ∀ s i, Running (h ++ [o]) s i ↔ Running h s i := by
    intro s i
    rw [running_step]
    constructor
    · rintro (⟨H, _⟩ | ⟨_, t, H⟩)
      · exact H
      · exact absurd H (ht s t)
    · exact fun H => Or.inl ⟨H, ho s⟩
  have us : ∀ s, Used (h ++ [o]) s ↔ Used h s := by
    intro s
    rw [used_step]
    constructor
    · rintro (⟨H, _⟩ | ⟨t, H⟩)
      · exact H
      · exact absurd H (ht s t)
    · exact fun H => Or.inl ⟨H, hr⟩
  refine ⟨I.wf, ?_, ?_, ?_, ?_, ?_, ?_, I.totalKnown, ?_⟩
  · intro s; rw [I.used, us]
  · intro s; rw [I.tracked]; simp only [run]
  · intro s; rw [I.known, us]
  · intro s i H
    have H' := (run s i).1 H
    rw [I.start s i H', timeAt_old h o (isTic_lt H'.1)]
  · intro s hs
    obtain ⟨x, h1, h2⟩ := I.last s hs
    exact ⟨x, h1, isLast_old h o s x h2 hr (Or.inl (hc s))⟩
  · intro s
    rw [I.total, spent_other h o s hr (hc s)]
  · refine I.order.imp ?_
    rintro a b ⟨i, j, h1, h2, h3⟩
    exact ⟨i, j, firstUse_old h o a i h1 hr, firstUse_old h o b j h2 hr, h3⟩

theorem keys_set_old {V : Type*} (d : PyDict S V) (k : S) (v : V) (hk : k ∈ d.keys) : (d.set k v).keys = d.keys := by
  induction d with
  | nil => simp at hk
  | cons p d ih =>
    obtain ⟨k', v'⟩ := p
    by_cases hkk : k' = k
    · simp [PyDict.set, hkk]
    · simp only [PyDict.set, hkk, if_false, PyDict.keys_cons]
      rw [ih]
      simpa [Ne.symm hkk] using hk

theorem inv_tic {h : List (Op S)} {T : Timer S} (I : TInv h T) (s₀ : S) (t : ℝ) :
    TInv (h ++ [.tic s₀ t]) (T.tic s₀ t) := by
  have run : ∀ s i, Running (h ++ [.tic s₀ t]) s i ↔
      (s ≠ s₀ ∧ Running h s i) ∨ (s = s₀ ∧ i = h.length) := by
    intro s i
    rw [running_step]
    constructor
    · rintro (⟨H, hc⟩ | ⟨H, t', H'⟩)
      · exact Or.inl ⟨fun e => hc e.symm, H⟩
      · cases H'; exact Or.inr ⟨rfl, H⟩
    · rintro (⟨H, hc⟩ | ⟨rfl, H⟩)
      · exact Or.inl ⟨hc, fun e => H e.symm⟩
      · exact Or.inr ⟨H, t, rfl⟩
  have us : ∀ s, Used (h ++ [.tic s₀ t]) s ↔ s = s₀ ∨ Used h s := by
    intro s
    rw [used_step]
    constructor
    · rintro (⟨H, _⟩ | ⟨t', H⟩)
      · exact Or.inr H
      · cases H; exact Or.inl rfl
    · rintro (rfl | H)
      · exact Or.inr ⟨t, rfl⟩
      · exact Or.inl ⟨H, by simp⟩
  refine ⟨PyDict.WF_set I.wf _ _, ?_, ?_, ?_, ?_, ?_, ?_, ?_, ?_⟩
  · intro s
    rw [us, ← I.used]
    exact PyDict.mem_keys_set _ _ _ _
  · intro s
    simp only [Timer.tic, PyDict.get?_set, run]
    by_cases hs : s = s₀
    · simp [hs]
    · simp [hs, I.tracked]
  · intro s
    rw [us, ← I.known]
    simp only [Timer.tic, PyDict.get?_set]
    by_cases hs : s = s₀ <;> simp [hs]
  · intro s i H
    simp only [Timer.tic, PyDict.get?_set]
    rcases (run s i).1 H with ⟨hs, H'⟩ | ⟨rfl, rfl⟩
    · rw [if_neg hs, I.start s i H', timeAt_old h _ (isTic_lt H'.1)]
    · rw [if_pos rfl, timeAt_new]; rfl
  · intro s hs
    simp only [Timer.tic, PyDict.get?_set] at hs
    by_cases he : s = s₀
    · rw [if_pos he] at hs; cases hs
    · rw [if_neg he] at hs
      obtain ⟨x, h1, h2⟩ := I.last s hs
      exact ⟨x, h1, isLast_old h _ s x h2 (by simp) (Or.inl (by simp))⟩
  · intro s
    rw [spent_other h _ s (by simp) (by simp)]
    exact I.total s
  · intro s hs
    simp only [Timer.tic, PyDict.get?_set] at hs
    by_cases he : s = s₀
    · rw [if_pos he] at hs; cases hs
    · rw [if_neg he] at hs
      exact I.totalKnown s hs
  · have old : T.startTime.keys.Pairwise fun a b => ∃ i j, FirstUse (h ++ [.tic s₀ t]) a i ∧
        FirstUse (h ++ [.tic s₀ t]) b j ∧ i < j := by
      refine I.order.imp ?_
      rintro a b ⟨i, j, h1, h2, h3⟩
      exact ⟨i, j, firstUse_old h _ a i h1 (by simp), firstUse_old h _ b j h2 (by simp), h3⟩
    by_cases hk : s₀ ∈ T.startTime.keys
    · show (PyDict.keys (T.startTime.set s₀ t)).Pairwise _
      rw [keys_set_old _ _ _ hk]
      exact old
    · show (PyDict.keys (T.startTime.set s₀ t)).Pairwise _
      rw [PyDict.set_of_not_mem hk, PyDict.keys, List.map_append, List.pairwise_append]
      refine ⟨old, by simp, ?_⟩
      intro a ha b hb
      simp only [List.map_cons, List.map_nil, List.mem_singleton] at hb
      subst hb
      obtain ⟨i, hi1, hi2⟩ := (I.used a).1 ha
      -- the first live tic of `a`
      have hex : ∃ i, IsTic h a i ∧ Live h i := ⟨i, hi1, hi2⟩
      refine ⟨Nat.find hex, h.length, firstUse_old h _ a _ ⟨(Nat.find_spec hex).1, (Nat.find_spec hex).2, ?_⟩ (by simp),
        firstUse_new h _ t (fun H => hk ((I.used _).2 H)), isTic_lt (Nat.find_spec hex).1⟩
      intro k hk1 hk2 hk3
      exact Nat.find_min hex hk1 ⟨hk2, hk3⟩

/-- `toc` fails exactly when the slot is not running, and then changes nothing. -/
theorem TInv.toc_cases {h : List (Op S)} {T : Timer S} (I : TInv h T) (s : S) (t : ℝ) :
    ((∀ i, ¬ Running h s i) ∧ T.toc s t = (T, .error (.notStarted s))) ∨
    ∃ i, Running h s i ∧ T.toc s t =
      ({ T with trackStatus := T.trackStatus.set s false
                timeUsage := T.timeUsage.set s (t - timeAt h i)
                totalTimeUsage := T.totalTimeUsage.set s (spent h s + (t - timeAt h i)) }, .ok ()) := by
  by_cases hr : ∃ i, Running h s i
  · obtain ⟨i, hi⟩ := hr
    refine Or.inr ⟨i, hi, ?_⟩
    have h1 := (I.tracked s).2 ⟨i, hi⟩
    unfold Timer.toc
    simp only [h1, Option.getD_some, Bool.not_true, Bool.false_eq_true, if_false, I.start s i hi, I.total]
  · have hn : ∀ i, ¬ Running h s i := fun i hi => hr ⟨i, hi⟩
    refine Or.inl ⟨hn, ?_⟩
    have h1 : T.trackStatus.get? s ≠ some true := fun H => hr ((I.tracked s).1 H)
    unfold Timer.toc
    have h2 : (T.trackStatus.get? s).getD false = false := by
      cases hg : T.trackStatus.get? s with
      | none => rfl
      | some b =>
        cases b with
        | true => exact absurd hg h1
        | false => rfl
    simp only [h2, Bool.not_false, if_true]

theorem inv_toc {h : List (Op S)} {T : Timer S} (I : TInv h T) (s₀ : S) (t : ℝ) :
    TInv (h ++ [.toc s₀ t]) (T.toc s₀ t).1 := by
  have us : ∀ s, Used (h ++ [.toc s₀ t]) s ↔ Used h s := by
    intro s
    rw [used_step]
    constructor
    · rintro (⟨H, _⟩ | ⟨t', H⟩)
      · exact H
      · cases H
    · exact fun H => Or.inl ⟨H, by simp⟩
  have run : ∀ s i, Running (h ++ [.toc s₀ t]) s i ↔ s ≠ s₀ ∧ Running h s i := by
    intro s i
    rw [running_step]
    constructor
    · rintro (⟨H, hc⟩ | ⟨H, t', H'⟩)
      · exact ⟨fun e => hc e.symm, H⟩
      · cases H'
    · rintro ⟨H, hc⟩
      exact Or.inl ⟨hc, fun e => H e.symm⟩
  have ord : T.startTime.keys.Pairwise fun a b => ∃ i j, FirstUse (h ++ [.toc s₀ t]) a i ∧
      FirstUse (h ++ [.toc s₀ t]) b j ∧ i < j := by
    refine I.order.imp ?_
    rintro a b ⟨i, j, h1, h2, h3⟩
    exact ⟨i, j, firstUse_old h _ a i h1 (by simp), firstUse_old h _ b j h2 (by simp), h3⟩
  rcases I.toc_cases s₀ t with ⟨hn, e⟩ | ⟨i₀, hr, e⟩
  · rw [e]
    have run' : ∀ s i, Running (h ++ [.toc s₀ t]) s i ↔ Running h s i := by
      intro s i
      rw [run]
      constructor
      · exact fun H => H.2
      · refine fun H => ⟨?_, H⟩
        rintro rfl
        exact hn i H
    refine ⟨I.wf, ?_, ?_, ?_, ?_, ?_, ?_, I.totalKnown, ord⟩
    · intro s; rw [I.used, us]
    · intro s; rw [I.tracked]; simp only [run']
    · intro s; rw [I.known, us]
    · intro s i H
      have H' := (run' s i).1 H
      rw [I.start s i H', timeAt_old h _ (isTic_lt H'.1)]
    · intro s hs
      obtain ⟨x, h1, h2⟩ := I.last s hs
      refine ⟨x, h1, isLast_old h _ s x h2 (by simp) ?_⟩
      by_cases he : s = s₀
      · subst he; exact Or.inr hn
      · exact Or.inl (fun t' H => he (by cases H; rfl))
    · intro s
      rw [I.total]
      by_cases he : s = s₀
      · subst he; rw [spent_toc_idle h s t hn]
      · rw [spent_other h _ s (by simp) (fun t' H => he (by cases H; rfl))]
  · rw [e]
    refine ⟨I.wf, ?_, ?_, ?_, ?_, ?_, ?_, ?_, ord⟩
    · intro s; rw [us, ← I.used]
    · intro s
      simp only [PyDict.get?_set, run]
      by_cases hs : s = s₀
      · simp [hs]
      · simp [hs, I.tracked]
    · intro s
      rw [us, ← I.known]
      simp only [PyDict.get?_set]
      by_cases hs : s = s₀
      · subst hs
        simp only [if_true]
        exact ⟨fun _ => ⟨true, (I.tracked s).2 ⟨i₀, hr⟩⟩, fun _ => ⟨false, rfl⟩⟩
      · simp [hs]
    · intro s i H
      have H' := ((run s i).1 H).2
      rw [timeAt_old h _ (isTic_lt H'.1)]
      exact I.start s i H'
    · intro s hs
      simp only [PyDict.get?_set] at hs ⊢
      by_cases he : s = s₀
      · subst he
        rw [if_pos rfl]
        exact ⟨_, rfl, isLast_new h s t i₀ hr⟩
      · rw [if_neg he] at hs ⊢
        obtain ⟨x, h1, h2⟩ := I.last s hs
        exact ⟨x, h1, isLast_old h _ s x h2 (by simp) (Or.inl (fun t' H => he (by cases H; rfl)))⟩
    · intro s
      simp only [PyDict.get?_set]
      by_cases he : s = s₀
      · subst he
        rw [if_pos rfl, spent_toc h s t i₀ hr]; rfl
      · rw [if_neg he, I.total, spent_other h _ s (by simp) (fun t' H => he (by cases H; rfl))]
    · intro s hs
      simp only [PyDict.get?_set] at hs ⊢
      by_cases he : s = s₀
      · rw [if_pos he]; exact ⟨_, rfl⟩
      · rw [if_neg he] at hs ⊢
        exact I.totalKnown s hs

/-- The invariant holds after every history. -/
theorem inv_run (h : List (Op S)) : TInv h (run h) := by
  induction h using List.reverseRecOn with
  | nil => exact inv_init
  | append_singleton h o ih =>
    unfold run at ih ⊢
    rw [List.foldl_append, List.foldl_cons, List.foldl_nil]
    cases o with
    | tic s t => exact inv_tic ih s t
    | toc s t => exact inv_toc ih s t
    | reportTime => exact inv_skip ih _ (fun s => id)
    | reportTotal =>
      dsimp only
      rw [ih.reportTotal_state]
      exact inv_skip ih _ (fun s => id)
    | reset => exact inv_reset

end Verif.Timing

import Verif.Proof.Utils
import Mathlib.Data.List.TakeWhile
import Mathlib.Tactic.NormNum
import Mathlib.Tactic.Ring
import Mathlib.Tactic.FieldSimp
import Mathlib.Tactic.Positivity

/-! # Properties of timers and progress bars: C105 -/

namespace Verif.Props

open Verif Timing

variable {S : Type*} [DecidableEq S]

/-- **C105 (ending an interval).** After every history of calls, `toc(slot)` raises "not
started" exactly when no interval of the slot is open, and then leaves the timer as it was;
otherwise it returns. -/
theorem C105_toc (h : List (Op S)) (s : S) (t : ℝ) :
    (((run h).toc s t).2 = .error (.notStarted s) ↔ ¬ ∃ i, Running h s i) ∧
    (((run h).toc s t).2 = .ok () ↔ ∃ i, Running h s i) ∧
    ((¬ ∃ i, Running h s i) → ((run h).toc s t).1 = run h) := by
  rcases (inv_run h).toc_cases s t with ⟨hn, e⟩ | ⟨i, hr, e⟩
  · rw [e]
    have : ¬ ∃ i, Running h s i := fun ⟨i, hi⟩ => hn i hi
    simp [this]
  · rw [e]
    have : ∃ i, Running h s i := ⟨i, hr⟩
    simp [this]

/-- **C105 (what the reports show).** After every history there is one list of slots - the
slots used since the last reset, each once, in the order of their first use - such that: if
no interval is open, `report_total_time` prints for each slot the sum of all its intervals
since the last reset and `report_time` the length of its last interval; if an interval is
open, both print the lines of the slots before the first slot with an open interval and then
raise for that slot.  Reports never change the timer. -/
theorem C105_reports (h : List (Op S)) :
    ∃ (slots : List S) (last : S → ℝ), slots.Nodup ∧ (∀ s, s ∈ slots ↔ Used h s) ∧
      slots.Pairwise (fun a b => ∃ i j, FirstUse h a i ∧ FirstUse h b j ∧ i < j) ∧
      (∀ s ∈ slots, (¬ ∃ i, Running h s i) → IsLast h s (last s)) ∧
      ((∀ s, ¬ ∃ i, Running h s i) →
        (run h).reportTotal = (run h, slots.map fun s => (s, spent h s), .ok ()) ∧
        (run h).reportTime = (slots.map fun s => (s, last s), .ok ())) ∧
      (∀ a s b, slots = a ++ s :: b → (∀ s' ∈ a, ¬ ∃ i, Running h s' i) → (∃ i, Running h s i) →
        (run h).reportTotal = (run h, a.map fun s => (s, spent h s), .error (.notEnded s)) ∧
        (run h).reportTime = (a.map fun s => (s, last s), .error (.notEnded s))) := by
  have I := inv_run h
  set T := run h with hT
  have hl : ∀ s ∈ T.startTime.keys, ∃ b, T.trackStatus.get? s = some b :=
    fun s hs => (I.known s).2 ((I.used s).1 hs)
  have hu : ∀ s, T.trackStatus.get? s = some false → ∃ x, T.timeUsage.get? s = some x :=
    fun s hs => (I.last s hs).imp fun x hx => hx.1
  have idle : ∀ s ∈ T.startTime.keys, (¬ ∃ i, Running h s i) → T.trackStatus.get? s = some false := by
    intro s hs hn
    obtain ⟨b, hb⟩ := hl s hs
    cases b with
    | false => exact hb
    | true => exact absurd ((I.tracked s).1 hb) hn
  have eT : T.reportTime = T.reportLoop T.startTime.keys := by
    unfold Timer.reportTime
    split_ifs with h0
    · rfl
    · have : T.startTime = [] := List.eq_nil_of_length_eq_zero (not_not.1 h0)
      rw [this]; rfl
  have eS : T.reportTotal = T.totalLoop T.startTime.keys := by
    unfold Timer.reportTotal
    split_ifs with h0
    · rfl
    · have : T.startTime = [] := List.eq_nil_of_length_eq_zero (not_not.1 h0)
      rw [this]; rfl
  have tot : (fun s => (s, (T.totalTimeUsage.get? s).getD 0)) = fun s => (s, spent h s) :=
    funext fun s => by rw [I.total]
  refine ⟨T.startTime.keys, fun s => (T.timeUsage.get? s).getD 0, I.wf, I.used, I.order, ?_, ?_, ?_⟩
  · intro s hs hn
    obtain ⟨x, h1, h2⟩ := I.last s (idle s hs hn)
    dsimp only; rw [h1]; exact h2
  · intro hn
    have hall : ∀ s ∈ T.startTime.keys, decide (T.trackStatus.get? s = some false) = true :=
      fun s hs => decide_eq_true (idle s hs (hn s))
    rw [eT, eS, reportLoop_eq T _ hl hu, totalLoop_eq T _ hl I.totalKnown, tot]
    dsimp only
    have e1 := List.takeWhile_append_of_pos (l₂ := []) hall
    rw [List.append_nil, List.takeWhile_nil, List.append_nil] at e1
    rw [e1, List.dropWhile_eq_nil_iff.2 hall]
    exact ⟨rfl, rfl⟩
  · intro a s b hk ha hr
    have hall : ∀ s' ∈ a, decide (T.trackStatus.get? s' = some false) = true :=
      fun s' hs' => decide_eq_true (idle s' (by rw [hk]; simp [hs']) (ha s' hs'))
    have hs : decide (T.trackStatus.get? s = some false) = false := by
      rw [(I.tracked s).2 hr]; rfl
    rw [eT, eS, reportLoop_eq T _ hl hu, totalLoop_eq T _ hl I.totalKnown, tot]
    dsimp only
    rw [hk, List.takeWhile_append_of_pos hall, List.dropWhile_append_of_pos hall]
    simp [hs]

/-- **C105 (no time is counted twice).** If the clock never runs backwards and starts at
`a`, then after every history the time spent in a slot is not negative and not larger than
the time passed since `a`. -/
theorem C105_bounded (h : List (Op S)) (s : S) (a m : ℝ) (ham : a ≤ m)
    (hclock : (h.filter fun o => match o with | .tic _ _ => true | .toc _ _ => true | _ => false).Pairwise
      fun o p => o.time ≤ p.time)
    (hlo : ∀ o ∈ h, (∃ s t, o = .tic s t ∨ o = .toc s t) → a ≤ o.time)
    (hhi : ∀ o ∈ h, (∃ s t, o = .tic s t ∨ o = .toc s t) → o.time ≤ m) :
    0 ≤ spent h s ∧ spent h s ≤ m - a := by
  have key : ∀ m, a ≤ m → (∀ o ∈ h, (∃ s t, o = .tic s t ∨ o = .toc s t) → o.time ≤ m) →
      0 ≤ spent h s ∧ spent h s ≤ m - a ∧ (∀ i, Running h s i → spent h s ≤ timeAt h i - a) ∧
      ∀ i, Running h s i → timeAt h i ≤ m := by
    clear ham hhi m
    induction h using List.reverseRecOn with
    | nil =>
      intro m ham _
      have nr : ∀ i, ¬ Running ([] : List (Op S)) s i := fun i hr => absurd (isTic_lt hr.1) (by simp)
      rw [spent_nil]
      exact ⟨le_refl _, by linarith, fun i hr => absurd hr (nr i), fun i hr => absurd hr (nr i)⟩
    | append_singleton h o ih =>
      intro m ham hhi
      rw [List.filter_append, List.pairwise_append] at hclock
      have ih1 := ih hclock.1 (fun o ho => hlo o (by simp [ho]))
      have ih2 := ih1 m ham (fun o ho => hhi o (by simp [ho]))
      have late : (∃ s t, o = .tic s t ∨ o = .toc s t) →
          ∀ p ∈ h, (∃ s t, p = .tic s t ∨ p = .toc s t) → p.time ≤ o.time := by
        rintro ⟨s', t', ho⟩ p hp ⟨s'', t'', hp'⟩
        refine hclock.2.2 p (List.mem_filter.2 ⟨hp, ?_⟩) o (List.mem_filter.2 ⟨by simp, ?_⟩)
        · rcases hp' with rfl | rfl <;> rfl
        · rcases ho with rfl | rfl <;> rfl
      have sub : ∀ i, Running (h ++ [o]) s i → (∀ t, o ≠ .tic s t) → Running h s i := by
        intro i hr hn
        rcases (running_step h o s i).1 hr with ⟨H, _⟩ | ⟨_, t, H⟩
        · exact H
        · exact absurd H (hn t)
      by_cases h1 : o = .reset
      · subst h1
        have nr : ∀ i, ¬ Running (h ++ [.reset]) s i := by
          intro i hr
          rcases (running_step h _ s i).1 hr with ⟨_, H⟩ | ⟨_, t, H⟩
          · exact H trivial
          · cases H
        rw [spent_reset]
        exact ⟨le_refl _, by linarith, fun i hr => absurd hr (nr i), fun i hr => absurd hr (nr i)⟩
      by_cases h2 : ∃ t, o = .toc s t
      · obtain ⟨t, rfl⟩ := h2
        have nr : ∀ i, ¬ Running (h ++ [.toc s t]) s i := by
          intro i hr
          rcases (running_step h _ s i).1 hr with ⟨_, H⟩ | ⟨_, t, H⟩
          · exact H rfl
          · cases H
        have hat : a ≤ t := hlo _ (by simp) ⟨s, t, Or.inr rfl⟩
        have htm : t ≤ m := hhi _ (by simp) ⟨s, t, Or.inr rfl⟩
        by_cases hr : ∃ i, Running h s i
        · obtain ⟨i, hi⟩ := hr
          have ih3 := ih1 t hat (late ⟨s, t, Or.inr rfl⟩)
          rw [spent_toc h s t i hi]
          have e1 := ih3.2.2.1 i hi
          have e2 := ih3.2.2.2 i hi
          exact ⟨by linarith [ih3.1], by linarith, fun i hr => absurd hr (nr i), fun i hr => absurd hr (nr i)⟩
        · rw [spent_toc_idle h s t (fun i hi => hr ⟨i, hi⟩)]
          exact ⟨ih2.1, ih2.2.1, fun i hr => absurd hr (nr i), fun i hr => absurd hr (nr i)⟩
      · have h2' : ∀ t, o ≠ .toc s t := fun t ht => h2 ⟨t, ht⟩
        rw [spent_other h o s h1 h2']
        refine ⟨ih2.1, ih2.2.1, ?_, ?_⟩
        · intro i hr
          rcases (running_step h o s i).1 hr with ⟨H, _⟩ | ⟨rfl, t, rfl⟩
          · rw [timeAt_old h o (isTic_lt H.1)]; exact ih2.2.2.1 i H
          · rw [timeAt_new]
            have hat : a ≤ t := hlo _ (by simp) ⟨s, t, Or.inl rfl⟩
            exact (ih1 t hat (late ⟨s, t, Or.inl rfl⟩)).2.1
        · intro i hr
          rcases (running_step h o s i).1 hr with ⟨H, _⟩ | ⟨rfl, t, rfl⟩
          · rw [timeAt_old h o (isTic_lt H.1)]; exact ih2.2.2.2 i H
          · rw [timeAt_new]
            exact hhi _ (by simp) ⟨s, t, Or.inl rfl⟩
  have := key m ham hhi
  exact ⟨this.1, this.2.1⟩

/-- A history which meets every part: slot 1 is measured twice (from 2 to 5 and, after a
second `tic` which discards the first, from 7 to 11), slot 2 is left running. -/
example : spent [Op.tic 1 2, .toc 1 5, .tic 1 6, .tic 2 6, .tic 1 7, .toc 1 11, .toc 3 12] 1 = (7 : ℝ) := by
  have r0 : Running [Op.tic 1 2] 1 0 := by
    have := (running_new ([] : List (Op ℕ)) (.tic 1 2) 1).2 ⟨2, rfl⟩
    simpa using this
  have s1 := spent_toc [Op.tic 1 2] 1 5 0 r0
  have s0 : spent [Op.tic 1 2] 1 = 0 := by
    have := spent_other ([] : List (Op ℕ)) (.tic 1 2) 1 (by simp) (by simp)
    rw [spent_nil] at this; exact this
  have r1 : Running [Op.tic 1 2, .toc 1 5, .tic 1 6, .tic 2 6, .tic 1 7] 1 4 :=
    (running_new [Op.tic 1 2, .toc 1 5, .tic 1 6, .tic 2 6] (.tic 1 7) 1).2 ⟨7, rfl⟩
  have s5 := spent_toc [Op.tic 1 2, .toc 1 5, .tic 1 6, .tic 2 6, .tic 1 7] 1 11 4 r1
  have s2 := spent_other [Op.tic 1 2, .toc 1 5] (.tic 1 6) 1 (by simp) (by simp)
  have s3 := spent_other [Op.tic 1 2, .toc 1 5, .tic 1 6] (.tic 2 6) 1 (by simp) (by simp)
  have s4 := spent_other [Op.tic 1 2, .toc 1 5, .tic 1 6, .tic 2 6] (.tic 1 7) 1 (by simp) (by simp)
  have s6 := spent_other [Op.tic 1 2, .toc 1 5, .tic 1 6, .tic 2 6, .tic 1 7, .toc 1 11] (.toc 3 12) 1
    (by simp) (by simp)
  simp only [List.cons_append, List.nil_append] at s1 s2 s3 s4 s5 s6
  rw [s6, s5, s4, s3, s2, s1, s0]
  simp [timeAt, Op.time]
  norm_num

/-! ## Progress bars -/

/-- The state of a bar after `c` counts and what it has printed. -/
theorem bar_run (n m : ℤ) (hn : n ≠ 0) (b : ProgressBar) (hb : ProgressBar.init n m = .ok b) (c : ℕ) :
    ∃ b' : ProgressBar, barLines b c = some (b', (((List.range c).map fun k : ℕ => (k : ℤ) + 1).filter fun k =>
        decide (n.fdiv m ≤ 0 ∨ n.fdiv m ∣ k)).map fun k : ℤ => (k, n, 100 * (k : ℝ) / (n : ℝ))) ∧
      b'.numTasks = n ∧ b'.scaleUnit = n.fdiv m ∧ b'.counter = c ∧
      (n.fdiv m ≤ 0 → b'.nextScale ≤ 0) ∧
      (0 < n.fdiv m → b'.nextScale = n.fdiv m * ((c : ℤ) / n.fdiv m + 1)) := by
  have hb' : b = ⟨n, m, n.fdiv m, n.fdiv m, 0⟩ := by
    unfold ProgressBar.init at hb
    split_ifs at hb
    cases hb; rfl
  set u := n.fdiv m with hu
  induction c with
  | zero =>
    refine ⟨b, rfl, ?_⟩
    rw [hb']
    refine ⟨rfl, rfl, rfl, fun h => h, fun h => ?_⟩
    simp
  | succ c ih =>
    obtain ⟨b', e, h1, h2, h3, h4, h5⟩ := ih
    rw [barLines, e]
    dsimp only
    have hrep : (b'.counter + 1 ≥ b'.nextScale) ↔ (u ≤ 0 ∨ u ∣ ((c : ℤ) + 1)) := by
      rw [h3]
      rcases le_or_gt u 0 with h0 | h0
      · have := h4 h0
        exact ⟨fun _ => Or.inl h0, fun _ => by omega⟩
      · rw [h5 h0]
        have hd := Int.mul_ediv_add_emod (c : ℤ) u
        have hm0 := Int.emod_nonneg (c : ℤ) (ne_of_gt h0)
        have hm1 := Int.emod_lt_of_pos (c : ℤ) h0
        constructor
        · intro hge
          refine Or.inr ⟨(c : ℤ) / u + 1, ?_⟩
          have : u * ((c : ℤ) / u + 1) = u * ((c : ℤ) / u) + u := by ring
          omega
        · rintro (hneg | ⟨q, hq⟩)
          · omega
          · have hq' : (c : ℤ) / u < q := by
              by_contra hc
              have h8 : u * q ≤ u * ((c : ℤ) / u) := mul_le_mul_of_nonneg_left (not_lt.1 hc) h0.le
              omega
            have h8 : u * ((c : ℤ) / u + 1) ≤ u * q := mul_le_mul_of_nonneg_left (by omega) h0.le
            omega
    have hlist : ((List.range (c + 1)).map fun k : ℕ => (k : ℤ) + 1) =
        ((List.range c).map fun k : ℕ => (k : ℤ) + 1) ++ [(c : ℤ) + 1] := by
      rw [List.range_succ, List.map_append]; rfl
    rw [hlist, List.filter_append, List.map_append]
    unfold ProgressBar.count
    dsimp only
    by_cases hr : u ≤ 0 ∨ u ∣ ((c : ℤ) + 1)
    · rw [if_pos (hrep.2 hr), if_neg (by rw [h1]; exact hn)]
      dsimp only
      refine ⟨_, congrArg some (Prod.ext rfl ?_), h1, h2, ?_, ?_, ?_⟩
      · rw [List.filter_cons_of_pos (by simpa using hr)]
        simp [h1, h3]
      · dsimp only; rw [h3]; push_cast; ring
      · intro h0
        have := h4 h0
        dsimp only
        rw [h2]; omega
      · intro h0
        dsimp only
        rw [h2, h5 h0]
        rcases hr with hr | ⟨q, hq⟩
        · omega
        · have hq1 : (((c + 1 : ℕ) : ℤ)) / u = q := by
            push_cast; rw [hq]; exact Int.mul_ediv_cancel_left _ (ne_of_gt h0)
          have hq2 : (c : ℤ) / u = q - 1 := by
            have e3 : (c : ℤ) = u * (q - 1) + (u - 1) := by
              have : u * (q - 1) = u * q - u := by ring
              omega
            rw [e3, Int.mul_add_ediv_left _ _ (ne_of_gt h0), Int.ediv_eq_zero_of_lt (by omega) (by omega)]
            ring
          rw [hq1, hq2]; ring
    · rw [if_neg (fun H => hr (hrep.1 H))]
      dsimp only
      refine ⟨_, congrArg some (Prod.ext rfl ?_), h1, h2, ?_, ?_, ?_⟩
      · rw [List.filter_cons_of_neg (by simpa using hr)]
        simp
      · dsimp only; rw [h3]; push_cast; ring
      · intro h0
        exact absurd (Or.inl h0) hr
      · intro h0
        dsimp only
        rw [h5 h0]
        have hd := Int.mul_ediv_add_emod (c : ℤ) u
        have hm1 := Int.emod_lt_of_pos (c : ℤ) h0
        have hm0 := Int.emod_nonneg (c : ℤ) (ne_of_gt h0)
        have hne : (c : ℤ) % u + 1 ≠ u := by
          intro he
          apply hr
          right
          refine ⟨(c : ℤ) / u + 1, ?_⟩
          have : u * ((c : ℤ) / u + 1) = u * ((c : ℤ) / u) + u := by ring
          omega
        have : (((c + 1 : ℕ) : ℤ)) / u = (c : ℤ) / u := by
          have e3 : (((c + 1 : ℕ) : ℤ)) = u * ((c : ℤ) / u) + ((c : ℤ) % u + 1) := by push_cast; omega
          have e4 : ((c : ℤ) % u + 1) / u = 0 := Int.ediv_eq_zero_of_lt (by omega) (by omega)
          rw [e3, Int.mul_add_ediv_left _ _ (ne_of_gt h0), e4, add_zero]
        rw [this]

/-- **C105 (when a progress bar reports).** For every number of tasks other than 0, every
number of scales other than 0 and every number of counts, exactly the counts which are
multiples of the unit (the floor of tasks over scales) are reported, in order, each once, with
its number and its percentage of the tasks; if the unit is not positive every count is. -/
theorem C105_progress (n m : ℤ) (hn : n ≠ 0) (hm : m ≠ 0) (c : ℕ) :
    ∃ b b', ProgressBar.init n m = .ok b ∧
      barLines b c = some (b', (((List.range c).map fun k : ℕ => (k : ℤ) + 1).filter fun k =>
        decide (n.fdiv m ≤ 0 ∨ n.fdiv m ∣ k)).map fun k : ℤ => (k, n, 100 * (k : ℝ) / (n : ℝ))) := by
  have h0 : ProgressBar.init n m = .ok ⟨n, m, n.fdiv m, n.fdiv m, 0⟩ := by
    unfold ProgressBar.init; rw [if_neg hm]
  obtain ⟨b', h1, _⟩ := bar_run n m hn _ h0 c
  exact ⟨_, b', h0, h1⟩

/-- **C105 (the finished task).** With at least as many tasks as scales, the last count is
reported (as 100 per cent) exactly when the unit divides the number of tasks. -/
theorem C105_progress_end (n m : ℕ) (hm : 0 < m) (hmn : m ≤ n) :
    ∃ b b' ls, ProgressBar.init n m = .ok b ∧ barLines b n = some (b', ls) ∧
      ((((n : ℤ), (n : ℤ), (100 : ℝ)) ∈ ls) ↔ (n / m) ∣ n) := by
  have hn : n ≠ 0 := by omega
  obtain ⟨b, b', h0, h1⟩ := C105_progress n m (by exact_mod_cast hn) (by exact_mod_cast hm.ne') n
  refine ⟨b, b', _, h0, h1, ?_⟩
  have hu : ((n : ℤ).fdiv (m : ℤ)) = ((n / m : ℕ) : ℤ) := by
    rw [Int.fdiv_eq_ediv_of_nonneg _ (by positivity)]; rfl
  have hpos : 0 < n / m := Nat.div_pos hmn hm
  have hn' : (n : ℝ) ≠ 0 := by exact_mod_cast hn
  rw [hu]
  constructor
  · intro H
    obtain ⟨k, hk, e⟩ := List.mem_map.1 H
    have hk2 := (List.mem_filter.1 hk).2
    have e1 : k = n := congrArg Prod.fst e
    subst e1
    rcases of_decide_eq_true hk2 with H | H
    · exact absurd H (by exact_mod_cast not_le.2 hpos)
    · exact_mod_cast H
  · intro H
    refine List.mem_map.2 ⟨(n : ℤ), List.mem_filter.2 ⟨List.mem_map.2 ⟨n - 1, by simp; omega, by omega⟩,
      decide_eq_true (Or.inr (by exact_mod_cast H))⟩, ?_⟩
    refine Prod.ext rfl (Prod.ext rfl ?_)
    simp only [Int.cast_natCast]
    field_simp

/-- **C105 (how many reports).** With at least as many tasks as scales, the tasks produce at
least as many reports as there are scales and fewer than twice as many. -/
theorem C105_progress_count (n m : ℕ) (hm : 0 < m) (hmn : m ≤ n) :
    ∃ b b' ls, ProgressBar.init n m = .ok b ∧ barLines b n = some (b', ls) ∧
      m ≤ ls.length ∧ ls.length < 2 * m := by
  have hn : n ≠ 0 := by omega
  obtain ⟨b, b', h0, h1⟩ := C105_progress n m (by exact_mod_cast hn) (by exact_mod_cast hm.ne') n
  refine ⟨b, b', _, h0, h1, ?_⟩
  have hu : ((n : ℤ).fdiv (m : ℤ)) = ((n / m : ℕ) : ℤ) := by
    rw [Int.fdiv_eq_ediv_of_nonneg _ (by positivity)]; rfl
  have hpos : 0 < n / m := Nat.div_pos hmn hm
  have hlen : ∀ c : ℕ, ((((List.range c).map fun k : ℕ => (k : ℤ) + 1).filter fun k =>
        decide ((n : ℤ).fdiv m ≤ 0 ∨ (n : ℤ).fdiv m ∣ k)).map
          fun k : ℤ => (k, (n : ℤ), 100 * (k : ℝ) / ((n : ℤ) : ℝ))).length = c / (n / m) := by
    intro c
    rw [List.length_map]
    induction c with
    | zero => simp
    | succ c ih =>
      rw [List.range_succ, List.map_append, List.filter_append, List.length_append, ih, Nat.succ_div, hu]
      have : ((((n / m : ℕ) : ℤ) ≤ 0) ∨ (((n / m : ℕ) : ℤ) ∣ ((c : ℤ) + 1))) ↔ (n / m) ∣ c + 1 := by
        constructor
        · rintro (H | H)
          · exact absurd H (by exact_mod_cast not_le.2 hpos)
          · exact_mod_cast H
        · exact fun H => Or.inr (by exact_mod_cast H)
      by_cases hd : (n / m) ∣ c + 1
      · simp only [List.map_cons, List.map_nil, hd, if_true]
        rw [List.filter_cons, if_pos (decide_eq_true (this.2 hd))]
        simp
      · simp only [List.map_cons, List.map_nil, hd, if_false]
        rw [List.filter_cons, if_neg (fun H => hd (this.1 (of_decide_eq_true H)))]
        simp
  rw [hlen]
  constructor
  · rw [Nat.le_div_iff_mul_le hpos]
    exact Nat.mul_div_le n m
  · rw [Nat.div_lt_iff_lt_mul hpos]
    have h5 := Nat.div_add_mod n m
    have h6 := Nat.mod_lt n hm
    have h7 : m * 1 ≤ m * (n / m) := Nat.mul_le_mul_left m hpos
    have h8 : 2 * m * (n / m) = m * (n / m) + m * (n / m) := by ring
    omega

/-- **C105 (bad bars).** A bar with no scales cannot be made; a bar for no tasks is made, but
its first count raises. -/
theorem C105_progress_zero (n m : ℤ) (hm : m ≠ 0) :
    ProgressBar.init n 0 = .error .zeroDivision ∧
    ∃ b, ProgressBar.init 0 m = .ok b ∧ b.count.2 = .error .zeroDivision := by
  refine ⟨rfl, ⟨0, m, 0, 0, 0⟩, ?_, ?_⟩
  · unfold ProgressBar.init
    rw [if_neg hm, Int.zero_fdiv]
  · simp [ProgressBar.count]

/-- The example of the documentation, 50 tasks and 10 scales, ends with 100 per cent; 25
tasks and 10 scales do not. -/
example : ((50 / 10) ∣ 50) ∧ ¬ ((25 / 10) ∣ 25) := by decide

end Verif.Props

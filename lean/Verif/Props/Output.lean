import Verif.Model.Output
import Verif.Props.ParallelRun

/-!
# C122: result files

Specification: `np.load` on a file name; the results of every calculation under the documented names.
-/

namespace Verif.Output

variable {D : Type}

/-! ## Specification -/

/-- `np.load(p)` (or `pickle.load`) for the reader `dec`. -/
def load {A : Type*} (dec : List ℕ → Option A) (fs : Fs) (p : Path) : Option A :=
  match fs p with
  | some (.file bytes) => dec bytes
  | _ => none

/-- The documented results of a calculation (solver.py:28-84): which value belongs into the output file of
which quantity. -/
def produces : Job D → String → Option D
  | .corrDos d, k => if k = "corr_DOS" then some d else none
  | .corrLdos d, k => if k = "corr_LDOS" then some d else none
  | .corrAc d, k => if k = "corr_AC" then some d else none
  | .corrDynPol d, k => if k = "corr_dyn_pol" then some d else none
  | .corrDc d d', k => if k = "corr_DOS" then some d else if k = "corr_DC" then some d' else none
  | .hallMu d, k => if k = "hall_mu" then some d else none
  | .quasiEigenstates save d, k => if save ∧ k = "qe" then some d else none
  | .ldosHaydock d, k => if k = "ldos_haydock" then some d else none
  | .psiT save d, k => if save ∧ k = "psi_t" then some d else none

/-- The name `directory/prefix.key.npy`. -/
def resultFile (dir : Path) (pre key : String) : Path := dir ++ [pre ++ "." ++ key ++ ".npy"]

/-- Does the operation write results of quantity `k` for this directory and prefix?  `save_config` does when
the user gives it the name of that file. -/
def Overwrites (s : Sess) (op : Op D) (dir : Path) (pre k : String) : Prop :=
  match op with
  | .compute j job _ => ∃ v, s.solvers[j]? = some v ∧ v.keyDir = dir ∧ v.keyPre 0 = pre ∧ ∃ d, produces job k = some d
  | .saveConfig j filename => ∃ v, s.solvers[j]? = some v ∧ v.dir ++ [v.pre 0 ++ "." ++ filename] = resultFile dir pre k
  | _ => False

/-! ## Names -/

theorem dot_split {a a' k k' : List Char} (hk : '.' ∉ k) (hk' : '.' ∉ k') (h : a ++ '.' :: k = a' ++ '.' :: k') :
    a = a' ∧ k = k' := by
  have h2 := congrArg List.reverse h
  simp only [List.reverse_append, List.reverse_cons, List.append_assoc, List.cons_append, List.nil_append] at h2
  have gen : ∀ (x y b b' : List Char), '.' ∉ x → '.' ∉ y → x ++ '.' :: b = y ++ '.' :: b' → x = y ∧ b = b' := by
    intro x
    induction x with
    | nil =>
      intro y b b' _ hy e
      cases y with
      | nil => simpa using e
      | cons c y =>
        simp only [List.nil_append, List.cons_append, List.cons.injEq] at e
        exact absurd (by simp [← e.1]) hy
    | cons c x ih =>
      intro y b b' hx hy e
      cases y with
      | nil =>
        simp only [List.nil_append, List.cons_append, List.cons.injEq] at e
        exact absurd (by simp [e.1]) hx
      | cons c' y =>
        simp only [List.cons_append, List.cons.injEq] at e
        obtain ⟨h1, h2⟩ := ih y b b' (fun h => hx (by simp [h])) (fun h => hy (by simp [h])) e.2
        exact ⟨by rw [e.1, h1], h2⟩
  obtain ⟨h3, h4⟩ := gen _ _ _ _ (by simpa using hk) (by simpa using hk') h2
  exact ⟨by simpa using congrArg List.reverse h4, by simpa using congrArg List.reverse h3⟩

theorem dot_name {a a' k k' : String} (hk : '.' ∉ k.toList) (hk' : '.' ∉ k'.toList)
    (h : a ++ "." ++ k = a' ++ "." ++ k') : a = a' ∧ k = k' := by
  have h2 := congrArg String.toList h
  simp only [String.toList_append, show ".".toList = ['.'] from rfl, List.append_assoc, List.cons_append,
    List.nil_append] at h2
  obtain ⟨h3, h4⟩ := dot_split hk hk' h2
  exact ⟨String.toList_injective h3, String.toList_injective h4⟩

/-- The nine quantities. -/
def quantities : List String :=
  ["corr_DOS", "corr_LDOS", "corr_AC", "corr_dyn_pol", "corr_DC", "hall_mu", "qe", "ldos_haydock", "psi_t"]

theorem quantity_dot : ∀ k ∈ quantities, '.' ∉ k.toList ∧ k ≠ "npy" := by decide +kernel

theorem produces_quantity (job : Job D) (k : String) (d : D) (h : produces job k = some d) : k ∈ quantities := by
  cases job <;> simp only [produces] at h <;> split_ifs at h <;> simp_all [quantities]

theorem saves_produces (job : Job D) (k : String) (d : D) : (k, d) ∈ job.saves ↔ produces job k = some d := by
  cases job with
  | corrDc a b =>
    by_cases h1 : k = "corr_DOS"
    · subst h1; simp [Job.saves, produces, eq_comm]
    · by_cases h2 : k = "corr_DC"
      · subst h2; simp [Job.saves, produces, eq_comm]
      · simp [Job.saves, produces, h1, h2]
  | quasiEigenstates save a => cases save <;> simp [Job.saves, produces, eq_comm] 
  | psiT save a => cases save <;> simp [Job.saves, produces, eq_comm]
  | _ => simp [Job.saves, produces, eq_comm]

theorem logs_quantity (job : Job D) (k : String) (h : k ∈ job.logs) : k ∈ quantities := by
  cases job <;> simp_all [Job.logs, quantities] <;> tauto

/-! ## Effects -/

/-- The path an effect changes. -/
def Act.path : Act → Path
  | .mkdir p => p
  | .create p => p
  | .write p _ => p

theorem act_other {fs fs' : Fs} {a : Act} (h : act fs a = .ok fs') {q : Path} (hq : q ≠ a.path) : fs' q = fs q := by
  cases a with
  | mkdir p =>
    simp only [act] at h
    split at h
    · cases h
    · cases h; simp only [put]; exact if_neg hq
  | create p =>
    simp only [act] at h
    split at h
    · cases h
    · split at h
      · cases h
      · cases h; simp only [put]; exact if_neg hq
  | write p b =>
    simp only [act] at h
    split at h
    · cases h; simp only [put]; exact if_neg hq
    · cases h; rfl

theorem exec_other (as : List Act) (fs : Fs) {q : Path} (hq : ∀ a ∈ as, q ≠ a.path) : (exec fs as).1 q = fs q := by
  induction as generalizing fs with
  | nil => rfl
  | cons a as ih =>
    simp only [exec]
    split
    · rfl
    · rename_i fs' h
      rw [ih fs' (fun b hb => hq b (by simp [hb])), act_other h (hq a (by simp))]

theorem exec_append (as bs : List Act) (fs : Fs) :
    exec fs (as ++ bs) = match exec fs as with
      | (fs1, some e) => (fs1, some e)
      | (fs1, none) => exec fs1 bs := by
  induction as generalizing fs with
  | nil => rfl
  | cons a as ih =>
    simp only [List.cons_append, exec]
    split
    · rfl
    · exact ih _

theorem exec_writes (p : Path) (bs pre : List ℕ) (fs : Fs) (h : fs p = some (.file pre)) :
    exec fs (bs.map (.write p)) = (put fs p (.file (pre ++ bs)), none) := by
  induction bs generalizing fs pre with
  | nil =>
    simp only [List.map_nil, exec, List.append_nil, Prod.mk.injEq, and_true]
    funext q
    by_cases hq : q = p
    · simp [put, hq, h]
    · simp [put, hq]
  | cons b bs ih =>
    simp only [List.map_cons, exec, act, h]
    rw [ih (pre ++ [b]) _ (by simp [put])]
    simp only [Prod.mk.injEq, and_true]
    funext q
    by_cases hq : q = p
    · simp [put, hq]
    · simp [put, hq]

/-- Writing a value either fails without an effect or puts the whole value into the file. -/
theorem exec_dump (p : Path) (bs : List ℕ) (fs : Fs) :
    (∃ e, exec fs (dump p bs) = (fs, some e)) ∨ exec fs (dump p bs) = (put fs p (.file bs), none) := by
  simp only [dump, exec]
  split
  · exact .inl ⟨_, rfl⟩
  · rename_i fs' h
    right
    have h2 : fs' = put fs p (.file []) := by
      simp only [act] at h
      split at h
      · cases h
      · split at h
        · cases h
        · cases h; rfl
    rw [exec_writes p bs [] fs' (by simp [h2, put]), h2]
    simp only [List.nil_append, Prod.mk.injEq, and_true]
    funext q
    by_cases hq : q = p <;> simp [put, hq]

theorem dump_path {p : Path} {bs : List ℕ} {a : Act} (h : a ∈ dump p bs) : a.path = p := by
  simp only [dump, List.mem_cons, List.mem_map] at h
  rcases h with rfl | ⟨b, _, rfl⟩ <;> rfl

theorem logActs_path {w : World} {v : Solver} {job : Job D} {log : ℕ → String → List ℕ} {a : Act}
    (h : a ∈ logActs w v job log) : ∃ r, ∃ k ∈ quantities, a.path = v.name r k := by
  simp only [logActs, List.mem_flatMap] at h
  obtain ⟨r, _, k, hk, ha⟩ := h
  exact ⟨r, k, logs_quantity job k hk, dump_path ha⟩

theorem saveActs_path {enc : D → List ℕ} {v : Solver} {job : Job D} {a : Act}
    (h : a ∈ saveActs enc v job) : ∃ k d, produces job k = some d ∧ a.path = v.npy k := by
  simp only [saveActs, List.mem_flatMap] at h
  obtain ⟨⟨k, d⟩, hk, ha⟩ := h
  exact ⟨k, d, (saves_produces job k d).1 hk, dump_path ha⟩

theorem npy_eq (x : String) : x ++ ".npy" = x ++ "." ++ "npy" := by
  apply String.toList_injective
  simp only [String.toList_append, List.append_assoc]
  rfl

/-- Result files differ from logs. -/
theorem npy_ne_name (v : Solver) (r : ℕ) (k' : String) (h' : k' ∈ quantities) (dir : Path) (pre k : String) :
    resultFile dir pre k ≠ v.name r k' := by
  intro h
  have h1 := (List.append_inj' h rfl).2
  simp only [List.cons.injEq, and_true] at h1
  have h2 : pre ++ "." ++ k ++ ".npy" = (pre ++ "." ++ k) ++ "." ++ "npy" := npy_eq _
  rw [h2] at h1
  exact (quantity_dot k' h').2 (dot_name (by decide) (quantity_dot k' h').1 h1).2.symm

/-- Result files differ from configurations. -/
theorem npy_ne_pkl (v : Solver) (dir : Path) (pre k : String) : resultFile dir pre k ≠ v.pkl "config.pkl" := by
  intro h
  have h1 := (List.append_inj' h rfl).2
  simp only [List.cons.injEq, and_true] at h1
  have h2 : pre ++ "." ++ k ++ ".npy" = (pre ++ "." ++ k) ++ "." ++ "npy" := npy_eq _
  have h3 : v.pre 0 ++ "." ++ "config.pkl" = (v.pre 0 ++ "." ++ "config") ++ "." ++ "pkl" := by
    apply String.toList_injective
    simp only [String.toList_append, List.append_assoc]
    rfl
  rw [h2, h3] at h1
  exact absurd (dot_name (by decide) (by decide) h1).2 (by decide)

/-- Result files with the same name belong to the same directory, prefix and quantity. -/
theorem npy_inj {dir dir' : Path} {pre pre' k k' : String} (hk : k ∈ quantities) (hk' : k' ∈ quantities)
    (h : resultFile dir pre k = resultFile dir' pre' k') : dir = dir' ∧ pre = pre' ∧ k = k' := by
  obtain ⟨h0, h1⟩ := List.append_inj' h rfl
  simp only [List.cons.injEq, and_true] at h1
  rw [npy_eq, npy_eq] at h1
  have h3 := (dot_name (by decide) (by decide) h1).1
  exact ⟨h0, dot_name (quantity_dot k hk).1 (quantity_dot k' hk').1 h3⟩

/-- An operation touches a result file only when it overwrites it. -/
theorem opActs_other (w : World) (enc : D → List ℕ) (encC : Config → List ℕ) (s : Sess) (op : Op D)
    (dir : Path) (pre k : String) (hk : k ∈ quantities) (hn : s.fs (resultFile dir pre k) ≠ none)
    (h : ¬ Overwrites s op dir pre k) : ∀ a ∈ opActs w enc encC s op, resultFile dir pre k ≠ a.path := by
  intro a ha
  have mk : ∀ d v c, a ∈ mkdirActs s.fs d ++ configActs encC v "config.pkl" c → resultFile dir pre k ≠ a.path := by
    intro d v c ha
    rcases List.mem_append.1 ha with ha | ha
    · simp only [mkdirActs] at ha
      split at ha
      · simp at ha
      · rename_i hd
        simp only [List.mem_singleton] at ha
        subst ha
        intro e
        simp only [Act.path] at e
        simp only [pathExists, Bool.or_eq_true, not_or] at hd
        rw [← e] at hd
        exact hd.2 (Option.isSome_iff_ne_none.2 hn)
    · rw [dump_path ha]
      exact npy_ne_pkl v dir pre k
  unfold opActs at ha
  split at ha
  · simp at ha
  · cases op with
    | config c => simp at ha
    | edit i f => simp at ha
    | solver i d p now =>
      simp only at ha
      split at ha
      · simp at ha
      · split at ha
        · simp at ha
        · exact mk _ _ _ ha
    | setOutput j d p now =>
      simp only at ha
      split at ha
      · simp at ha
      · split at ha
        · simp at ha
        · exact mk _ _ _ ha
    | saveConfig j fn =>
      simp only at ha
      split at ha
      · simp at ha
      · rename_i v hv
        split at ha
        · simp at ha
        · rw [dump_path ha]
          intro e
          exact h ⟨v, hv, e.symm⟩
    | compute j job log =>
      simp only at ha
      split at ha
      · simp at ha
      · rename_i v hv
        split at ha
        · simp at ha
        · rcases List.mem_append.1 ha with ha | ha
          · obtain ⟨r, k', hk', e⟩ := logActs_path ha
            rw [e]
            exact npy_ne_name v r k' hk' dir pre k
          · obtain ⟨k', d, hd, e⟩ := saveActs_path ha
            rw [e]
            intro e2
            obtain ⟨h1, h2, h3⟩ := npy_inj hk (produces_quantity job k' d hd) e2
            subst h3
            exact h ⟨v, hv, h1.symm, h2.symm, d, hd⟩

/-- The files after an operation are those after its effects, up to the first exception. -/
theorem step_fs (w : World) (enc : D → List ℕ) (encC : Config → List ℕ) (s : Sess) (op : Op D) :
    (step w enc encC s op).1.fs = (exec s.fs (opActs w enc encC s op)).1 := by
  have so : ∀ v c, (setOutput encC s.fs v c).1 = (exec s.fs (mkdirActs s.fs v.dir ++ configActs encC v "config.pkl" c)).1 := by
    intro v c
    rw [exec_append]
    simp only [setOutput]
    split
    · rename_i h; rw [h]
    · rename_i h
      rw [h]
      split <;> (rename_i h2; show _ = (exec _ _).1; rw [h2])
  unfold step opActs
  split
  · rfl
  · cases op with
    | config c => rfl
    | edit i f => rfl
    | solver i d p now =>
      simp only
      split
      · rfl
      · split
        · rfl
        · exact so _ _
    | setOutput j d p now =>
      simp only
      split
      · rfl
      · split
        · rfl
        · exact so _ _
    | saveConfig j fn =>
      simp only
      split
      · rfl
      · split
        · rfl
        · split <;> (rename_i h2; rw [h2])
    | compute j job log =>
      simp only
      split
      · rfl
      · split
        · rfl
        · rw [exec_append]
          split
          · rename_i h; rw [h]
          · rename_i h
            rw [h]
            split <;> (rename_i h2; show _ = (exec _ _).1; rw [h2])

/-! ## Theorems -/

variable (w : World) (enc : D → List ℕ) (encC : Config → List ℕ)

theorem exec_dumps (v : Solver) (l : List (String × D)) (hq : ∀ p ∈ l, p.1 ∈ quantities)
    (hn : (l.map Prod.fst).Nodup) (fs fs' : Fs)
    (h : exec fs (l.flatMap fun p => dump (v.npy p.1) (enc p.2)) = (fs', none)) :
    ∀ p ∈ l, fs' (v.npy p.1) = some (.file (enc p.2)) := by
  induction l generalizing fs with
  | nil => intro p hp; simp at hp
  | cons a l ih =>
    rw [List.flatMap_cons, exec_append] at h
    rcases exec_dump (v.npy a.1) (enc a.2) fs with ⟨e, he⟩ | he
    · rw [he] at h; simp at h
    · rw [he] at h
      simp only at h
      simp only [List.map_cons, List.nodup_cons] at hn
      intro p hp
      rcases List.mem_cons.1 hp with rfl | hp
      · have := congrArg Prod.fst h
        simp only at this
        rw [← this, exec_other]
        · simp [put]
        · intro b hb
          obtain ⟨q, hq2, hb⟩ := List.mem_flatMap.1 hb
          rw [dump_path hb]
          intro e
          have h3 := (npy_inj (hq p (by simp)) (hq q (by simp [hq2])) e).2.2
          exact hn.1 (h3 ▸ List.mem_map_of_mem hq2)
      · exact ih (fun q hq2 => hq q (by simp [hq2])) hn.2 _ h p hp

theorem saves_nodup (job : Job D) : (job.saves.map Prod.fst).Nodup := by
  cases job with
  | quasiEigenstates save a => cases save <;> simp [Job.saves]
  | psiT save a => cases save <;> simp [Job.saves]
  | _ => simp [Job.saves]

/-- A calculation that returns has not been made by a dead session. -/
theorem done_compute {s : Sess} {j : ℕ} {v : Solver} {job : Job D} {log : ℕ → String → List ℕ}
    (hv : s.solvers[j]? = some v) (h : (step w enc encC s (.compute j job log)).2 0 = .done) :
    s.over = false ∧ ¬ (job.serialOnly ∧ w.size ≠ 1) ∧ ∃ fs1, exec s.fs (logActs w v job log) = (fs1, none) ∧
      ∃ fs2, exec fs1 (saveActs enc v job) = (fs2, none) ∧
        (step w enc encC s (.compute j job log)).1 = { s with
          fs := fs2, cfgs := (if job.distributes then s.cfgs.modify v.cfg (adjust w) else s.cfgs) } := by
  unfold step at h ⊢
  split at h
  · simp [all] at h
  · rename_i ho
    rw [if_neg ho]
    simp only [hv] at h ⊢
    split at h
    · simp [all] at h
    · rename_i hs
      refine ⟨by simpa using ho, hs, ?_⟩
      rw [if_neg hs]
      rcases h1 : exec s.fs (logActs w v job log) with ⟨fs1, _ | e⟩
      · rw [h1] at h
        simp only at h
        rcases h2 : exec fs1 (saveActs enc v job) with ⟨fs2, _ | e⟩
        · exact ⟨fs1, rfl, fs2, h2, by simp [h2]⟩
        · rw [h2] at h
          simp [masterElse] at h
      · rw [h1] at h
        simp [all] at h

theorem saved_bytes {s : Sess} {j : ℕ} {v : Solver} {job : Job D} {log : ℕ → String → List ℕ}
    (hv : s.solvers[j]? = some v) (h : (step w enc encC s (.compute j job log)).2 0 = .done) {k : String} {d : D}
    (hd : produces job k = some d) :
    (step w enc encC s (.compute j job log)).1.fs (resultFile v.keyDir (v.keyPre 0) k) = some (.file (enc d)) := by
  obtain ⟨_, _, fs1, _, fs2, h2, h3⟩ := done_compute w enc encC hv h
  rw [h3]
  exact exec_dumps enc v job.saves (fun p hp => produces_quantity job p.1 p.2 ((saves_produces job p.1 p.2).1 hp))
    (saves_nodup job) fs1 fs2 h2 (k, d) ((saves_produces job k d).2 hd)

theorem kept_bytes (ops : List (Op D)) (s : Sess) (dir : Path) (pre k : String) (hk : k ∈ quantities)
    (hn : s.fs (resultFile dir pre k) ≠ none)
    (hops : ∀ h1 op h2, ops = h1 ++ op :: h2 → ¬ Overwrites (run w enc encC s h1) op dir pre k) :
    (run w enc encC s ops).fs (resultFile dir pre k) = s.fs (resultFile dir pre k) := by
  induction ops generalizing s with
  | nil => rfl
  | cons op ops ih =>
    have h1 : (step w enc encC s op).1.fs (resultFile dir pre k) = s.fs (resultFile dir pre k) := by
      rw [step_fs]
      exact exec_other _ _ (opActs_other w enc encC s op dir pre k hk hn (hops [] op ops rfl))
    rw [← h1]
    refine ih (step w enc encC s op).1 (by rw [h1]; exact hn) ?_
    intro a op' b e
    exact hops (op :: a) op' b (by rw [e]; rfl)

/-- **C122 (results).** A calculation that returns leaves every result in the file of its quantity; it stays there
through every later history (further solvers, changes of the output, other calculations,
exceptions) that does not write this quantity for the same directory and prefix, and through a crash at any point
of any further such operation. -/
theorem C122_kept (dec : List ℕ → Option D) (hdec : ∀ d, dec (enc d) = some d)
    (s : Sess) (j : ℕ) (v : Solver) (hv : s.solvers[j]? = some v) (job : Job D) (log : ℕ → String → List ℕ)
    (hdone : (step w enc encC s (.compute j job log)).2 0 = .done)
    (k : String) (d : D) (hd : produces job k = some d) (ops : List (Op D))
    (hops : ∀ h1 op h2, ops = h1 ++ op :: h2 →
      ¬ Overwrites (run w enc encC (step w enc encC s (.compute j job log)).1 h1) op v.keyDir (v.keyPre 0) k) :
    let s' := run w enc encC (step w enc encC s (.compute j job log)).1 ops
    load dec s'.fs (resultFile v.keyDir (v.keyPre 0) k) = some d ∧
      ∀ (op : Op D) (n : ℕ), ¬ Overwrites s' op v.keyDir (v.keyPre 0) k →
        load dec (crash w enc encC s' op n) (resultFile v.keyDir (v.keyPre 0) k) = some d := by
  have h1 := saved_bytes w enc encC hv hdone hd
  have hk := produces_quantity job k d hd
  have h2 := kept_bytes w enc encC ops _ _ _ k hk (by rw [h1]; simp) hops
  rw [h1] at h2
  refine ⟨by simp [load, h2, hdec], fun op n ho => ?_⟩
  have h3 : (crash w enc encC (run w enc encC (step w enc encC s (.compute j job log)).1 ops) op n)
      (resultFile v.keyDir (v.keyPre 0) k) = some (.file (enc d)) := by
    rw [← h2, crash]
    refine exec_other _ _ fun a ha => ?_
    exact opActs_other w enc encC _ op _ _ k hk (by rw [h2]; simp) ho a (List.mem_of_mem_take ha)
  simp [load, h3, hdec]

theorem done_setOutput {fs : Fs} {v : Solver} {c : Config} (h : (setOutput encC fs v c).2 0 = .done) :
    (exec fs (mkdirActs fs v.dir)).2 = none ∧ (setOutput encC fs v c).2 = all .done ∧
      (setOutput encC fs v c).1 (v.pkl "config.pkl") = some (.file (encC c)) := by
  simp only [setOutput] at h ⊢
  rcases h1 : exec fs (mkdirActs fs v.dir) with ⟨fs1, _ | e⟩
  · rw [h1] at h
    simp only at h ⊢
    rcases exec_dump (v.pkl "config.pkl") (encC c) fs1 with ⟨e, he⟩ | he
    · simp only [configActs, he] at h
      simp [masterElse] at h
    · simp [configActs, he, put]
  · rw [h1] at h
    simp [masterElse] at h

theorem ends_done (w : World) : ends w (all .done) = false := by
  simp [ends, all]

/-- What a successful constructor leaves behind. -/
theorem done_solver {s : Sess} {i : ℕ} {c : Config} (hc : s.cfgs[i]? = some c) {dir : Path} {pre : Option String}
    {now : ℕ → ℕ} (h : (step w enc encC s (.solver i dir pre now)).2 0 = .done) :
    (step w enc encC s (.solver i dir pre now)).1.fs (dir ++ [prefixOf pre now 0 ++ "." ++ "config.pkl"]) =
        some (.file (encC c)) ∧
      (step w enc encC s (.solver i dir pre now)).1.solvers =
        s.solvers ++ [⟨i, dir, prefixOf pre now, dir, prefixOf pre now⟩] ∧
      (step w enc encC s (.solver i dir pre now)).1.cfgs = s.cfgs ∧
      (step w enc encC s (.solver i dir pre now)).1.over = false ∧ c.checkParams = .ok () := by
  unfold step at h ⊢
  split at h
  · simp [all] at h
  · rename_i ho
    rw [if_neg ho]
    simp only [hc] at h ⊢
    split at h
    · simp [all] at h
    · rename_i hcp
      simp only at h ⊢
      obtain ⟨_, h2, h3⟩ := done_setOutput encC h
      refine ⟨h3, by simp [h], trivial, ?_, hcp⟩
      rw [h2, ends_done]

/-- Configurations differ from results and logs. -/
theorem pkl_ne (v : Solver) (dir : Path) (pre : String) :
    (∀ k, dir ++ [pre ++ "." ++ "config.pkl"] ≠ v.npy k) ∧
      ∀ r, ∀ k ∈ quantities, dir ++ [pre ++ "." ++ "config.pkl"] ≠ v.name r k := by
  refine ⟨fun k h => npy_ne_pkl ⟨0, dir, fun _ => pre, dir, fun _ => pre⟩ v.keyDir (v.keyPre 0) k h.symm, ?_⟩
  intro r k hk h
  have h1 := (List.append_inj' h rfl).2
  simp only [List.cons.injEq, and_true] at h1
  have h3 : pre ++ "." ++ "config.pkl" = (pre ++ "." ++ "config") ++ "." ++ "pkl" := by
    apply String.toList_injective
    simp only [String.toList_append, List.append_assoc]
    rfl
  rw [h3] at h1
  have h4 := (dot_name (by decide) (quantity_dot k hk).1 h1).2
  subst h4
  revert hk
  decide

theorem config_bytes {s : Sess} {i : ℕ} {c : Config} (hc : s.cfgs[i]? = some c) {dir : Path} {p : String}
    {now : ℕ → ℕ} {job : Job D} {log : ℕ → String → List ℕ}
    (h : (step w enc encC s (.solver i dir (some p) now)).2 0 = .done)
    (h' : (step w enc encC (step w enc encC s (.solver i dir (some p) now)).1
      (.compute s.solvers.length job log)).2 0 = .done) :
    (step w enc encC (step w enc encC s (.solver i dir (some p) now)).1 (.compute s.solvers.length job log)).1.fs
      (dir ++ [p ++ ".config.pkl"]) = some (.file (encC c)) := by
  obtain ⟨h1, h2, h3, h4, _⟩ := done_solver w enc encC hc h
  have hv : (step w enc encC s (.solver i dir (some p) now)).1.solvers[s.solvers.length]? =
      some ⟨i, dir, prefixOf (some p) now, dir, prefixOf (some p) now⟩ := by
    rw [h2]; simp
  have h7 : p ++ ".config.pkl" = p ++ "." ++ "config.pkl" := by
    apply String.toList_injective
    simp only [String.toList_append, List.append_assoc]
    rfl
  have h1' : (step w enc encC s (.solver i dir (some p) now)).1.fs (dir ++ [p ++ "." ++ "config.pkl"]) =
    some (.file (encC c)) := h1
  rw [h7, ← h1', step_fs]
  refine exec_other _ _ fun a ha => ?_
  obtain ⟨_, hs, _⟩ := done_compute w enc encC hv h'
  simp only [opActs, h4, hv, Bool.false_eq_true, if_false, if_neg hs] at ha
  rcases List.mem_append.1 ha with ha | ha
  · obtain ⟨r, k', hk', e⟩ := logActs_path ha
    rw [e]
    exact (pkl_ne _ dir p).2 r k' hk'
  · obtain ⟨k', d, hd, e⟩ := saveActs_path ha
    rw [e]
    exact (pkl_ne _ dir p).1 k'

/-- **C122 (names).** `Solver(sample, config, directory=dir, prefix=p)` stores the configuration in
`dir/p.config.pkl`, and a calculation with it stores its results in `dir/p.<quantity>.npy`; the
configuration file is left as it was. -/
theorem C122_names (dec : List ℕ → Option D) (hdec : ∀ d, dec (enc d) = some d) (decC : List ℕ → Option Config)
    (hdecC : ∀ c, decC (encC c) = some c) (s : Sess) (i : ℕ) (c : Config) (hc : s.cfgs[i]? = some c) (dir : Path) (p : String)
    (now : ℕ → ℕ) (job : Job D) (log : ℕ → String → List ℕ) :
    let r := step w enc encC s (.solver i dir (some p) now)
    let r' := step w enc encC r.1 (.compute s.solvers.length job log)
    r.2 0 = .done → r'.2 0 = .done →
      (∀ k d, produces job k = some d → load dec r'.1.fs (resultFile dir p k) = some d) ∧
      load decC r'.1.fs (dir ++ [p ++ ".config.pkl"]) = some c := by
  intro r r' h h'
  obtain ⟨h1, h2, h3, h4, _⟩ := done_solver w enc encC hc h
  have hv : r.1.solvers[s.solvers.length]? = some ⟨i, dir, prefixOf (some p) now, dir, prefixOf (some p) now⟩ := by
    rw [h2]; simp
  refine ⟨fun k d hd => ?_, ?_⟩
  · have h5 := saved_bytes w enc encC hv h' hd
    simp only [prefixOf] at h5
    simp only [load]
    rw [h5]
    exact hdec d
  · simp only [load]
    rw [config_bytes w enc encC hc h h']
    exact hdecC c

/-- **C122 (the default prefix).** The default prefix is the time in seconds: two solvers created in different
seconds have different prefixes, hence different files. -/
theorem C122_seconds (now now' : ℕ → ℕ) (h : now 0 ≠ now' 0) (dir dir' : Path) (k k' : String)
    (hk : k ∈ quantities) (hk' : k' ∈ quantities) :
    resultFile dir (prefixOf none now 0) k ≠ resultFile dir' (prefixOf none now' 0) k' := by
  intro e
  have h1 := (npy_inj hk hk' e).2.1
  simp only [prefixOf] at h1
  have h2 : Nat.toDigits 10 (now 0) = Nat.toDigits 10 (now' 0) := String.ofList_injective h1
  have h3 := congrArg (fun l => Nat.ofDigitChars 10 l 0) h2
  simp only [Nat.ofDigitChars_ten_toDigits] at h3
  exact h h3

/-- **C122 (fails for solvers of one second).** Two solvers created with the default prefix and the same directory
within one second share their files: the result of the first is replaced by that of the second. -/
theorem C122_same_second_fails (dec : List ℕ → Option D) (hdec : ∀ d, dec (enc d) = some d)
    (s : Sess) (i i' : ℕ) (c c' : Config) (hc : s.cfgs[i]? = some c) (hc' : s.cfgs[i']? = some c') (dir : Path)
    (now now' : ℕ → ℕ) (hnow : now 0 = now' 0) (d d' : D) (log log' : ℕ → String → List ℕ) :
    let r1 := step w enc encC s (.solver i dir none now)
    let r2 := step w enc encC r1.1 (.solver i' dir none now')
    let r3 := step w enc encC r2.1 (.compute s.solvers.length (.corrDos d) log)
    let r4 := step w enc encC r3.1 (.compute (s.solvers.length + 1) (.corrDos d') log')
    r1.2 0 = .done → r2.2 0 = .done → r3.2 0 = .done → r4.2 0 = .done →
      load dec r3.1.fs (resultFile dir (toString (now 0)) "corr_DOS") = some d ∧
      load dec r4.1.fs (resultFile dir (toString (now 0)) "corr_DOS") = some d' := by
  intro r1 r2 r3 r4 h1 h2 h3 h4
  obtain ⟨_, a2, a3, _, _⟩ := done_solver w enc encC hc h1
  obtain ⟨_, b2, _, _, _⟩ := done_solver w enc encC (s := r1.1) (c := c') (by rw [a3]; exact hc') h2
  have hs : r2.1.solvers = s.solvers ++ [⟨i, dir, prefixOf none now, dir, prefixOf none now⟩] ++
      [⟨i', dir, prefixOf none now', dir, prefixOf none now'⟩] := by
    rw [b2, a2]
  have hv1 : r2.1.solvers[s.solvers.length]? = some ⟨i, dir, prefixOf none now, dir, prefixOf none now⟩ := by
    rw [hs]; simp
  have hv2 : r3.1.solvers[s.solvers.length + 1]? = some ⟨i', dir, prefixOf none now', dir, prefixOf none now'⟩ := by
    obtain ⟨_, _, _, _, _, _, e⟩ := done_compute w enc encC hv1 h3
    show (step w enc encC r2.1 (.compute s.solvers.length (.corrDos d) log)).1.solvers[_]? = _
    rw [e]
    simp only [hs]
    rw [List.getElem?_append_right (by simp)]
    simp
  have e1 := saved_bytes w enc encC hv1 h3 (k := "corr_DOS") (d := d) rfl
  have e2 := saved_bytes w enc encC hv2 h4 (k := "corr_DOS") (d := d') rfl
  simp only [prefixOf] at e1 e2
  rw [← hnow] at e2
  constructor
  · simp only [load]; rw [e1]; exact hdec d
  · simp only [load]; rw [e2]; exact hdec d'

/-- **C122 (fails for one solver).** `calc_corr_dc_cond` replaces the result of `calc_corr_dos` of the same solver by
its own function, which has one value less. -/
theorem C122_dc_fails (dec : List ℕ → Option D) (hdec : ∀ d, dec (enc d) = some d)
    (s : Sess) (j : ℕ) (v : Solver) (hv : s.solvers[j]? = some v) (d d1 d2 : D) (log log' : ℕ → String → List ℕ) :
    let r := step w enc encC s (.compute j (.corrDos d) log)
    let r' := step w enc encC r.1 (.compute j (.corrDc d1 d2) log')
    r.2 0 = .done → r'.2 0 = .done →
      load dec r.1.fs (resultFile v.keyDir (v.keyPre 0) "corr_DOS") = some d ∧
      load dec r'.1.fs (resultFile v.keyDir (v.keyPre 0) "corr_DOS") = some d1 := by
  intro r r' h h'
  have hv' : r.1.solvers[j]? = some v := by
    obtain ⟨_, _, _, _, _, _, e⟩ := done_compute w enc encC hv h
    show (step w enc encC s (.compute j (.corrDos d) log)).1.solvers[_]? = _
    rw [e]
    exact hv
  have e1 := saved_bytes w enc encC hv h (k := "corr_DOS") (d := d) rfl
  have e2 := saved_bytes w enc encC hv' h' (k := "corr_DOS") (d := d1) rfl
  constructor
  · simp only [load]; rw [e1]; exact hdec d
  · simp only [load]; rw [e2]; exact hdec d1

/-- Crash points around the bytes of one file. -/
theorem exec_take_dump (A B : List Act) (p : Path) (bs : List ℕ) (hA : ∀ a ∈ A, p ≠ a.path) (hB : ∀ a ∈ B, p ≠ a.path)
    (fs : Fs) (n : ℕ) : (exec fs ((A ++ dump p bs ++ B).take n)).1 p = fs p ∨
      ∃ m, (exec fs ((A ++ dump p bs ++ B).take n)).1 p = some (.file (bs.take m)) := by
  rw [List.take_append, List.take_append, exec_append, exec_append]
  have a1 := exec_other (A.take n) fs (q := p) fun a ha => hA a (List.mem_of_mem_take ha)
  rcases h1 : exec fs (A.take n) with ⟨fs1, _ | e⟩
  · rw [h1] at a1
    simp only at a1 ⊢
    have key : (exec fs1 ((dump p bs).take (n - A.length))).1 p = fs p ∨
        ∃ m, (exec fs1 ((dump p bs).take (n - A.length))).1 p = some (.file (bs.take m)) := by
      cases hm : n - A.length with
      | zero => left; simpa [exec] using a1
      | succ m =>
        have e : (dump p bs).take (m + 1) = dump p (bs.take m) := by simp [dump, List.map_take]
        rw [e]
        rcases exec_dump p (bs.take m) fs1 with ⟨e, he⟩ | he
        · left; rw [he]; exact a1
        · right; exact ⟨m, by rw [he]; simp [put]⟩
    rcases h2 : exec fs1 ((dump p bs).take (n - A.length)) with ⟨fs2, _ | e⟩
    · rw [h2] at key
      simp only at key ⊢
      rw [exec_other _ _ fun a ha => hB a (List.mem_of_mem_take ha)]
      exact key
    · rw [h2] at key
      exact key
  · rw [h1] at a1
    exact .inl a1

/-- The effects of a calculation around one of its result files. -/
theorem opActs_split {s : Sess} {j : ℕ} {v : Solver} {job : Job D} {log : ℕ → String → List ℕ}
    (hv : s.solvers[j]? = some v) (ho : s.over = false) (hs : ¬ (job.serialOnly ∧ w.size ≠ 1)) {k : String} {d : D}
    (hd : produces job k = some d) : ∃ A B, opActs w enc encC s (.compute j job log) =
      A ++ dump (resultFile v.keyDir (v.keyPre 0) k) (enc d) ++ B ∧
      (∀ a ∈ A, resultFile v.keyDir (v.keyPre 0) k ≠ a.path) ∧ ∀ a ∈ B, resultFile v.keyDir (v.keyPre 0) k ≠ a.path := by
  obtain ⟨l1, l2, hl⟩ := List.append_of_mem ((saves_produces job k d).2 hd)
  have hq : ∀ p ∈ job.saves, p.1 ∈ quantities := fun p hp =>
    produces_quantity job p.1 p.2 ((saves_produces job p.1 p.2).1 hp)
  have hn := saves_nodup job
  rw [hl] at hn hq
  have hk := produces_quantity job k d hd
  have other : ∀ l : List (String × D), (∀ p ∈ l, p.1 ∈ quantities) → k ∉ l.map Prod.fst →
      ∀ a ∈ l.flatMap (fun p => dump (v.npy p.1) (enc p.2)), resultFile v.keyDir (v.keyPre 0) k ≠ a.path := by
    intro l hql hkl a ha
    obtain ⟨p, hp, ha⟩ := List.mem_flatMap.1 ha
    rw [dump_path ha]
    intro e
    exact hkl ((npy_inj hk (hql p hp) e).2.2 ▸ List.mem_map_of_mem hp)
  simp only [List.map_append, List.map_cons] at hn
  have hn' := List.nodup_middle.1 hn
  simp only [List.nodup_cons, List.mem_append, not_or] at hn'
  refine ⟨logActs w v job log ++ l1.flatMap (fun p => dump (v.npy p.1) (enc p.2)),
    l2.flatMap (fun p => dump (v.npy p.1) (enc p.2)), ?_, ?_, ?_⟩
  · simp only [opActs, ho, hv, Bool.false_eq_true, if_false, if_neg hs, saveActs, hl, List.flatMap_append,
      List.flatMap_cons, List.append_assoc]
    rfl
  · intro a ha
    rcases List.mem_append.1 ha with ha | ha
    · obtain ⟨r, k', hk', e⟩ := logActs_path ha
      rw [e]
      exact npy_ne_name v r k' hk' _ _ k
    · exact other l1 (fun p hp => hq p (by simp [hp])) hn'.1.1 a ha
  · exact other l2 (fun p hp => hq p (by simp [hp])) hn'.1.2

/-- **C122 (crashes, partial).** Killed at any point, a calculation leaves in its result file what was there before or
the first bytes of the new result.  (The full claim would be: the old or the new result.) -/
theorem C122_crash_partial (s : Sess) (j : ℕ) (v : Solver) (hv : s.solvers[j]? = some v) (job : Job D)
    (log : ℕ → String → List ℕ) (k : String) (d : D) (hd : produces job k = some d) (n : ℕ) :
    crash w enc encC s (.compute j job log) n (resultFile v.keyDir (v.keyPre 0) k) =
        s.fs (resultFile v.keyDir (v.keyPre 0) k) ∨
      ∃ m, crash w enc encC s (.compute j job log) n (resultFile v.keyDir (v.keyPre 0) k) =
        some (.file ((enc d).take m)) := by
  by_cases ho : s.over = true
  · left; simp [crash, opActs, ho, exec]
  · by_cases hs : job.serialOnly ∧ w.size ≠ 1
    · left
      simp only [crash, opActs, ho, hv, Bool.false_eq_true, if_false, if_pos hs, List.take_nil, exec]
    · obtain ⟨A, B, e, hA, hB⟩ := opActs_split w enc encC (log := log) hv (by simpa using ho) hs hd
      rw [crash, e]
      exact exec_take_dump A B _ _ hA hB s.fs n

/-- **C122 (crashes: the full claim fails).** Every calculation has a point at which a crash leaves neither the old
nor the new result: the file is empty. -/
theorem C122_crash_loses (s : Sess) (j : ℕ) (v : Solver) (hv : s.solvers[j]? = some v) (job : Job D)
    (log : ℕ → String → List ℕ) (hdone : (step w enc encC s (.compute j job log)).2 0 = .done)
    (k : String) (d : D) (hd : produces job k = some d) :
    ∃ n, crash w enc encC s (.compute j job log) n (resultFile v.keyDir (v.keyPre 0) k) = some (.file []) := by
  obtain ⟨ho, hs, fs1, h1, fs2, h2, _⟩ := done_compute w enc encC hv hdone
  obtain ⟨A, B, e, hA, hB⟩ := opActs_split w enc encC (log := log) hv ho hs hd
  have hall : exec s.fs (A ++ dump (resultFile v.keyDir (v.keyPre 0) k) (enc d) ++ B) = (fs2, none) := by
    rw [← e]
    simp only [opActs, ho, hv, Bool.false_eq_true, if_false, if_neg hs]
    rw [exec_append, h1]
    exact h2
  refine ⟨A.length + 1, ?_⟩
  rw [crash, e]
  have e2 : (A ++ dump (resultFile v.keyDir (v.keyPre 0) k) (enc d) ++ B).take (A.length + 1) =
      A ++ dump (resultFile v.keyDir (v.keyPre 0) k) [] := by
    rw [List.append_assoc, List.take_length_add_append]
    simp [dump]
  rw [e2, exec_append]
  rw [List.append_assoc, exec_append] at hall
  rcases hA1 : exec s.fs A with ⟨fsA, _ | er⟩
  · rw [hA1] at hall
    simp only at hall ⊢
    rcases exec_dump (resultFile v.keyDir (v.keyPre 0) k) [] fsA with ⟨er, he⟩ | he
    · exfalso
      rw [exec_append] at hall
      have h3 : ∃ er, exec fsA (dump (resultFile v.keyDir (v.keyPre 0) k) (enc d)) = (fsA, some er) := by
        simp only [dump, exec] at he ⊢
        split at he
        · rename_i er' hh
          exact ⟨_, rfl⟩
        · simp [exec] at he
      obtain ⟨er', h3⟩ := h3
      rw [h3] at hall
      simp at hall
    · rw [he]; simp [put]
  · rw [hA1] at hall
    simp at hall

/-- **C122 (the stored number of samples: the claim fails).** With MPI, when the number of samples is not a multiple of
the number of processes, the configuration file of a solver states the number asked for, while the calculation uses
the next multiple (which it writes into the configuration object of the user). -/
theorem C122_samples_fails (decC : List ℕ → Option Config) (hdecC : ∀ c, decC (encC c) = some c)
    (hm : w.mpi = true) (s : Sess) (i : ℕ) (c : Config) (hc : s.cfgs[i]? = some c) (m : ℕ)
    (hcm : c.generic.get? "nr_random_samples" = some (.int m)) (hd : m % w.size ≠ 0) (dir : Path) (p : String)
    (now : ℕ → ℕ) (d : D) (log : ℕ → String → List ℕ) :
    let r := step w enc encC s (.solver i dir (some p) now)
    let r' := step w enc encC r.1 (.compute s.solvers.length (.corrDos d) log)
    r.2 0 = .done → r'.2 0 = .done →
      (∃ f, load decC r'.1.fs (dir ++ [p ++ ".config.pkl"]) = some f ∧ f.generic.get? "nr_random_samples" = some (.int m)) ∧
      ∃ c' m' : _, r'.1.cfgs[i]? = some c' ∧ c'.generic.get? "nr_random_samples" = some (.int (m' : ℕ)) ∧
        m' = (distSample w m).1 ∧ w.size ∣ m' ∧ m < m' := by
  intro r r' h h'
  refine ⟨⟨c, ?_, hcm⟩, ?_⟩
  · simp only [load]
    rw [config_bytes w enc encC hc h h']
    exact hdecC c
  · obtain ⟨_, h2, h3, h4, _⟩ := done_solver w enc encC hc h
    have hv : r.1.solvers[s.solvers.length]? = some ⟨i, dir, prefixOf (some p) now, dir, prefixOf (some p) now⟩ := by
      rw [h2]; simp
    obtain ⟨_, _, _, _, _, _, e⟩ := done_compute w enc encC hv h'
    obtain ⟨a1, a2, _⟩ := Verif.Props.C46_samples w m
    have hdvd : w.size ∣ (distSample w m).1 := ⟨(distSample w m).2, by rw [← a1, Nat.mul_comm]⟩
    have hne : (distSample w m).1 ≠ m := fun e => hd (Nat.mod_eq_zero_of_dvd (e ▸ hdvd))
    have hcf : r'.1.cfgs = s.cfgs.modify i (adjust w) := by
      rw [show r'.1 = _ from e]
      simp only [Job.distributes, if_true]
      rw [h3]
    refine ⟨adjust w c, (distSample w m).1, ?_, ?_, rfl, hdvd, by omega⟩
    · rw [hcf, List.getElem?_modify]
      simp [hc]
    · simp only [adjust, hcm, Int.toNat_natCast, if_neg hne]
      rw [PyDict.get?_set_self]

/-- **C122 (running again).** Running again from the stored configuration with as many processes uses the same number of samples, as
does running with the adjusted configuration. -/
theorem C122_rerun (n : ℕ) : distSample w (distSample w n).1 = distSample w n := by
  obtain ⟨a1, a2, a3⟩ := Verif.Props.C46_samples w n
  obtain ⟨b1, b2, b3⟩ := Verif.Props.C46_samples w (distSample w n).1
  have h : (distSample w (distSample w n).1).1 = (distSample w n).1 :=
    le_antisymm (b3 _ ⟨(distSample w n).2, by rw [← a1, Nat.mul_comm]⟩ le_rfl) b2
  refine Prod.ext h ?_
  have : (distSample w (distSample w n).1).2 * w.size = (distSample w n).2 * w.size := by rw [b1, a1, h]
  exact Nat.eq_of_mul_eq_mul_right w.pos this

/-- **C122 (directories whose parent is missing).** `set_output` creates one level only: when the parent does not exist the master raises
`FileNotFoundError`, no file is changed and no solver created, and the other processes wait forever. -/
theorem C122_parent_missing (s : Sess) (ho : s.over = false) (i : ℕ) (c : Config) (hc : s.cfgs[i]? = some c)
    (hcp : c.checkParams = .ok ()) (dir : Path) (sub : String) (pre : Option String) (now : ℕ → ℕ) (hne : dir ≠ [])
    (h1 : s.fs dir = none) (h2 : s.fs (dir ++ [sub]) = none) :
    let r := step w enc encC s (.solver i (dir ++ [sub]) pre now)
    r.2 0 = .raised .notFound ∧ (∀ q, 0 < q → r.2 q = .waiting) ∧ r.1.fs = s.fs ∧ r.1.solvers = s.solvers ∧
      (1 < w.size → r.1.over = true) ∧ (w.size = 1 → r.1.over = false) := by
  have hexec : exec s.fs (mkdirActs s.fs (dir ++ [sub])) = (s.fs, some .notFound) := by
    have e1 : pathExists s.fs (dir ++ [sub]) = false := by simp [pathExists, h2]
    have e2 : parentErr s.fs (dir ++ [sub]) = some .notFound := by simp [parentErr, isDir, h1, hne]
    simp [mkdirActs, e1, exec, act, e2]
  intro r
  have hr : r = ({ s with over := ends w (masterElse (.raised .notFound) .waiting) }, masterElse (.raised .notFound) .waiting) := by
    show step w enc encC s (.solver i (dir ++ [sub]) pre now) = _
    unfold step
    simp only [ho, hc, hcp, Bool.false_eq_true, if_false, setOutput, hexec]
    simp [masterElse]
  rw [hr]
  refine ⟨by simp [masterElse], fun q hq => by simp [masterElse, Nat.pos_iff_ne_zero.1 hq], rfl, rfl, ?_, ?_⟩
  · intro hw
    simp only [ends, List.any_eq_true, List.mem_range]
    exact ⟨1, hw, by simp [masterElse]⟩
  · intro hw
    simp [ends, hw, masterElse]

/-- **C122 (after a refused change of the output).** When `set_output` fails to create the directory and the user goes on, the results still go to
the files of the earlier directory and prefix. -/
theorem C122_stale (dec : List ℕ → Option D) (hdec : ∀ d, dec (enc d) = some d)
    (s : Sess) (ho : s.over = false) (j : ℕ) (v : Solver) (hv : s.solvers[j]? = some v) (c : Config)
    (hc : s.cfgs[v.cfg]? = some c) (dir : Path) (sub : String) (pre : Option String) (now : ℕ → ℕ) (hne : dir ≠ [])
    (h1 : s.fs dir = none) (h2 : s.fs (dir ++ [sub]) = none) (job : Job D) (log : ℕ → String → List ℕ)
    (k : String) (d : D) (hd : produces job k = some d) :
    let r := step w enc encC s (.setOutput j (dir ++ [sub]) pre now)
    let r' := step w enc encC r.1 (.compute j job log)
    r.2 0 = .raised .notFound ∧
      (r'.2 0 = .done → load dec r'.1.fs (resultFile v.keyDir (v.keyPre 0) k) = some d) := by
  have hexec : exec s.fs (mkdirActs s.fs (dir ++ [sub])) = (s.fs, some .notFound) := by
    have e1 : pathExists s.fs (dir ++ [sub]) = false := by simp [pathExists, h2]
    have e2 : parentErr s.fs (dir ++ [sub]) = some .notFound := by simp [parentErr, isDir, h1, hne]
    simp [mkdirActs, e1, exec, act, e2]
  intro r r'
  have hr : r.2 0 = .raised .notFound ∧ r.1.solvers = s.solvers.set j { v with dir := dir ++ [sub], pre := prefixOf pre now } := by
    show (step w enc encC s (.setOutput j (dir ++ [sub]) pre now)).2 0 = _ ∧
      (step w enc encC s (.setOutput j (dir ++ [sub]) pre now)).1.solvers = _
    unfold step
    simp only [ho, hv, hc, Bool.false_eq_true, if_false, setOutput, hexec]
    simp [masterElse]
  refine ⟨hr.1, fun h => ?_⟩
  have hv' : r.1.solvers[j]? = some { v with dir := dir ++ [sub], pre := prefixOf pre now } := by
    rw [hr.2, List.getElem?_set_self (List.getElem?_eq_some_iff.1 hv).1]
  have e1 := saved_bytes w enc encC hv' h hd
  simp only [load]
  rw [e1]
  exact hdec d

/-! ## A session -/

/-- A configuration with ten samples. -/
def demoConfig : Config :=
  Config.setLegalParams ⟨[("nr_random_samples", .int 10)], [], [], [], [], [], []⟩

/-- Four processes. -/
def demoWorld : World := ⟨true, 4, by decide, by decide⟩

/-- Two solvers in an empty directory. -/
def demoStart : Sess :=
  run demoWorld (fun d : ℕ => [d, 0, 7]) (fun _ => [1, 2]) ⟨fun _ => none, [], [], false⟩
    [.config demoConfig, .solver 0 ["sim_data"] (some "a") (fun r => r), .solver 0 ["sim_data"] none fun r => 100 + r]

/-- The hypotheses of the theorems hold for it: calculations return, the files hold the results, the second
solver does not touch the files of the first, and a crash can leave an empty file. -/
example :
    let r := step demoWorld (fun d : ℕ => [d, 0, 7]) (fun _ => [1, 2]) demoStart (.compute 0 (.corrDc 5 6) fun r _ => [r])
    let r' := step demoWorld (fun d : ℕ => [d, 0, 7]) (fun _ => [1, 2]) r.1 (.compute 1 (.corrDos 8) fun r _ => [r])
    r.2 0 = .done ∧ r'.2 3 = .done ∧ r'.1.fs ["sim_data", "a.corr_DOS.npy"] = some (.file [5, 0, 7]) ∧
      r'.1.fs ["sim_data", "a.corr_DC.npy"] = some (.file [6, 0, 7]) ∧
      r'.1.fs ["sim_data", "100.corr_DOS.npy"] = some (.file [8, 0, 7]) ∧
      r'.1.fs ["sim_data", "103.corr_DOS"] = some (.file [3]) ∧
      crash demoWorld (fun d : ℕ => [d, 0, 7]) (fun _ => [1, 2]) r'.1 (.compute 0 (.corrDos 9) fun r _ => [r]) 9
        ["sim_data", "a.corr_DOS.npy"] = some (.file []) := by
  decide +kernel

end Verif.Output

import Verif.Spec.Config
import Mathlib.Tactic.NormNum
import Mathlib.Tactic.FieldSimp
import Mathlib.Tactic.Positivity

/-! # Properties of configurations: C106 -/

namespace Verif.Props

open Verif ConfigSpec

/-- The groups `check_params` looks at, in its order. -/
def checkedGroups : List Group := [.generic, .ldos, .dynPol, .dckb]

theorem legal_edit (c : Config) (e : Edit) : (e.apply c).legal = c.legal := by
  cases e with
  | set g k v => cases g <;> rfl
  | pop g k => cases g <;> rfl
  | assign g d => cases g <;> rfl
  | temperature T =>
    simp only [Edit.apply, Config.setTemperature]
    split_ifs <;> rfl

theorem legal_edited (c : Config) (es : List Edit) : (edited c es).legal = c.legal := by
  induction es generalizing c with
  | nil => rfl
  | cons e es ih => rw [edited, List.foldl_cons, ← edited, ih, legal_edit]

theorem checkOne_eq (c : Config) (attr : PyDict String ParamVal) (name : String) (ref : List String)
    (h : c.legal.get? name = some ref) :
    (c.checkOne attr name = .ok () ↔ ∀ k ∈ attr.keys, k ∈ ref) ∧
    (∀ e, c.checkOne attr name = .error e → ∃ k ∈ attr.keys, k ∉ ref ∧ e = .undefined name k) := by
  unfold Config.checkOne
  rw [h]
  dsimp only
  cases hf : attr.keys.filter (fun k => !ref.contains k) with
  | nil =>
    rw [List.filter_eq_nil_iff] at hf
    refine ⟨⟨fun _ k hk => ?_, fun _ => rfl⟩, fun e he => by cases he⟩
    have := hf k hk
    simpa using this
  | cons key l =>
    have hm : key ∈ attr.keys.filter (fun k => !ref.contains k) := by rw [hf]; simp
    obtain ⟨h1, h2⟩ := List.mem_filter.1 hm
    have h3 : key ∉ ref := by simpa using h2
    refine ⟨⟨fun H => (by cases H), fun H => absurd (H key h1) h3⟩, ?_⟩
    intro e he
    cases he
    exact ⟨key, h1, h3, rfl⟩

/-- `check_params` for any set of legal names. -/
theorem check_general (c : Config) (ref : Group → List String)
    (h : ∀ g ∈ checkedGroups, c.legal.get? (title g) = some (ref g)) :
    (c.checkParams = .ok () ↔ ∀ g ∈ checkedGroups, ∀ k ∈ (c.get g).keys, k ∈ ref g) ∧
    (∀ e, c.checkParams = .error e → ∃ g ∈ checkedGroups, ∃ k ∈ (c.get g).keys, k ∉ ref g ∧
      e = .undefined (title g) k) := by
  have h1 := checkOne_eq c c.generic "generic" _ (h .generic (by simp [checkedGroups]))
  have h2 := checkOne_eq c c.ldos "LDOS" _ (h .ldos (by simp [checkedGroups]))
  have h3 := checkOne_eq c c.dynPol "dyn_pol" _ (h .dynPol (by simp [checkedGroups]))
  have h4 := checkOne_eq c c.dckb "dckb" _ (h .dckb (by simp [checkedGroups]))
  unfold Config.checkParams
  have split : (∀ g ∈ checkedGroups, ∀ k ∈ (c.get g).keys, k ∈ ref g) ↔
      (∀ k ∈ c.generic.keys, k ∈ ref .generic) ∧ (∀ k ∈ c.ldos.keys, k ∈ ref .ldos) ∧
      (∀ k ∈ c.dynPol.keys, k ∈ ref .dynPol) ∧ (∀ k ∈ c.dckb.keys, k ∈ ref .dckb) := by
    simp only [checkedGroups, List.mem_cons, List.not_mem_nil, or_false, forall_eq_or_imp, forall_eq]
    rfl
  rw [split, ← h1.1, ← h2.1, ← h3.1, ← h4.1]
  cases e1 : c.checkOne c.generic "generic" with
  | error e =>
    refine ⟨⟨fun H => (by cases H), fun H => (by cases H.1)⟩, ?_⟩
    rintro e' he'
    obtain ⟨k, a, b, d⟩ := h1.2 e e1
    cases he'
    exact ⟨.generic, by simp [checkedGroups], k, a, b, d⟩
  | ok u1 =>
  cases e2 : c.checkOne c.ldos "LDOS" with
  | error e =>
    refine ⟨⟨fun H => (by cases H), fun H => (by cases H.2.1)⟩, ?_⟩
    rintro e' he'
    obtain ⟨k, a, b, d⟩ := h2.2 e e2
    cases he'
    exact ⟨.ldos, by simp [checkedGroups], k, a, b, d⟩
  | ok u2 =>
  cases e3 : c.checkOne c.dynPol "dyn_pol" with
  | error e =>
    refine ⟨⟨fun H => (by cases H), fun H => (by cases H.2.2.1)⟩, ?_⟩
    rintro e' he'
    obtain ⟨k, a, b, d⟩ := h3.2 e e3
    cases he'
    exact ⟨.dynPol, by simp [checkedGroups], k, a, b, d⟩
  | ok u3 =>
  cases e4 : c.checkOne c.dckb "dckb" with
  | error e =>
    refine ⟨⟨fun H => (by cases H), fun H => (by cases H.2.2.2)⟩, ?_⟩
    rintro e' he'
    obtain ⟨k, a, b, d⟩ := h4.2 e e4
    cases he'
    exact ⟨.dckb, by simp [checkedGroups], k, a, b, d⟩
  | ok u4 => exact ⟨⟨fun _ => ⟨rfl, rfl, rfl, rfl⟩, fun _ => rfl⟩, fun e he => by cases he⟩

theorem init_legal : ∀ g ∈ checkedGroups, Config.init.legal.get? (title g) = some (names g) := by
  intro g hg
  simp only [checkedGroups, List.mem_cons, List.not_mem_nil, or_false] at hg
  rcases hg with rfl | rfl | rfl | rfl <;>
    simp [Config.init, Config.setLegalParams, PyDict.get?_cons, title, names, PyDict.keys]

/-- **C106 (misspelled parameters are found).** Whatever a user does to a new configuration,
`check_params` - called by every solver and analyzer - passes exactly when every key of the
groups `generic`, `LDOS`, `dyn_pol` and `dckb` is the name of a parameter of that group, and
otherwise raises for a key which is present and is not such a name.

Partial: the full property asks this of all six groups; see `C106_unchecked`. -/
theorem C106_check_partial (es : List Edit) :
    ((edited Config.init es).checkParams = .ok () ↔
      ∀ g ∈ checkedGroups, ∀ k ∈ ((edited Config.init es).get g).keys, k ∈ names g) ∧
    (∀ e, (edited Config.init es).checkParams = .error e →
      ∃ g ∈ checkedGroups, ∃ k ∈ ((edited Config.init es).get g).keys, k ∉ names g ∧
        e = .undefined (title g) k) := by
  refine check_general _ names ?_
  intro g hg
  rw [legal_edited]
  exact init_legal g hg

/-- **C106 (two groups are never checked).** Whatever a user does to the groups
`DC_conductivity` and `quasi_eigenstates`, the result of `check_params` stays the same: a
misspelled parameter there is not found. -/
theorem C106_unchecked (c : Config) (d d' : PyDict String ParamVal) :
    ((c.put .dcConductivity d).put .quasiEigenstates d').checkParams = c.checkParams := rfl

/-- So the property fails for these groups: a new configuration with the key `energy_limit`
instead of `energy_limits` passes. -/
theorem C106_unchecked_witness :
    ¬ ∀ es : List Edit, (edited Config.init es).checkParams = .ok () →
      ∀ g, ∀ k ∈ ((edited Config.init es).get g).keys, k ∈ names g := by
  intro H
  have h1 := H [.set .dcConductivity "energy_limit" (.float 1)] ?_ .dcConductivity "energy_limit" ?_
  · revert h1; decide
  · refine (C106_check_partial _).1.2 ?_
    intro g hg k hk
    simp only [checkedGroups, List.mem_cons, List.not_mem_nil, or_false] at hg
    rcases hg with rfl | rfl | rfl | rfl <;>
      simpa [edited, Edit.apply, Config.put, Config.get, Config.init, Config.setLegalParams, PyDict.keys, names]
        using hk
  · simp [edited, Edit.apply, Config.put, Config.get, Config.init, Config.setLegalParams, PyDict.set,
      PyDict.keys]

/-- **C106 (missing parameters are not found).** Removing parameters never makes
`check_params` raise. -/
theorem C106_missing (c : Config) (g : Group) (k : String) (ref : Group → List String)
    (h : ∀ g ∈ checkedGroups, c.legal.get? (title g) = some (ref g)) (hc : c.checkParams = .ok ()) :
    (Edit.apply c (.pop g k)).checkParams = .ok () := by
  have hl : ∀ g' ∈ checkedGroups, (Edit.apply c (.pop g k)).legal.get? (title g') = some (ref g') := by
    intro g' hg'
    rw [legal_edit]; exact h g' hg'
  rw [(check_general _ ref hl).1]
  rw [(check_general _ ref h).1] at hc
  have sub : ∀ g' k', k' ∈ ((Edit.apply c (.pop g k)).get g').keys → k' ∈ (c.get g').keys := by
    intro g' k' hk'
    have hsub : ∀ d : PyDict String ParamVal, k' ∈ (d.erase k).keys → k' ∈ d.keys := by
      intro d hd
      exact (List.Sublist.map Prod.fst (PyDict.erase_sublist d k)).mem hd
    cases g <;> cases g' <;> first | exact hk' | exact hsub _ hk'
  exact fun g' hg' k' hk' => hc g' hg' k' (sub g' k' hk')

/-- **C106 (a configuration read from a file is never refused).** `read_config` takes over the
six groups of the file and declares their keys legal, so `check_params` passes for every
file, whatever keys it has; and of parameters set afterwards exactly those whose keys were in
the file pass. -/
theorem C106_read (file : Config) (es : List Edit) :
    (∀ g, (Config.readConfig file).get g = file.get g) ∧
    (Config.readConfig file).checkParams = .ok () ∧
    ((edited (Config.readConfig file) es).checkParams = .ok () ↔
      ∀ g ∈ checkedGroups, ∀ k ∈ ((edited (Config.readConfig file) es).get g).keys, k ∈ (file.get g).keys) := by
  have hl : ∀ g ∈ checkedGroups, (Config.readConfig file).legal.get? (title g) = some (file.get g).keys := by
    intro g hg
    simp only [checkedGroups, List.mem_cons, List.not_mem_nil, or_false] at hg
    rcases hg with rfl | rfl | rfl | rfl <;> rfl
  have hg : ∀ g, (Config.readConfig file).get g = file.get g := by intro g; cases g <;> rfl
  refine ⟨hg, ?_, ?_⟩
  · rw [(check_general _ _ hl).1]
    intro g _ k hk
    rwa [hg] at hk
  · refine (check_general _ (fun g => (file.get g).keys) ?_).1
    intro g hg
    rw [legal_edited]
    exact hl g hg

/-- Both directions matter: a misspelled key of the file passes, and a correct parameter
which the file does not have is refused when it is set. -/
theorem C106_read_witness :
    (∃ file : Config, "nr_ran_samples" ∈ ((Config.readConfig file).get .generic).keys ∧
      "nr_ran_samples" ∉ names .generic ∧ (Config.readConfig file).checkParams = .ok ()) ∧
    (∃ (file : Config) (v : ParamVal), "seed" ∈ names .generic ∧
      (Edit.apply (Config.readConfig file) (.set .generic "seed" v)).checkParams =
        .error (.undefined "generic" "seed")) := by
  constructor
  · refine ⟨Edit.apply Config.init (.set .generic "nr_ran_samples" (.int 1)), ?_, by decide, (C106_read _ []).2.1⟩
    rw [(C106_read _ []).1]
    simp [Edit.apply, Config.put, Config.get, PyDict.mem_keys_set]
  · refine ⟨Edit.apply Config.init (.assign .generic []), .int 1, by decide, ?_⟩
    rfl

/-- **C106 (round trip).** Saving a configuration and reading it back gives the same
parameters, and a configuration which passes the check passes it again. -/
theorem C106_round_trip (es : List Edit) :
    (∀ g, (Config.readConfig (edited Config.init es)).get g = (edited Config.init es).get g) ∧
    ((edited Config.init es).checkParams = .ok () →
      (Config.readConfig (edited Config.init es)).checkParams = .ok ()) :=
  ⟨(C106_read _ []).1, fun _ => (C106_read _ []).2.1⟩

/-- **C106 (temperature).** After `set_temperature(T)` with `T ≠ 0`, `beta · KB · T = 1` and
all other parameters are as before; `T = 0` raises and changes nothing. -/
theorem C106_temperature (c : Config) (T : ℝ) :
    (T ≠ 0 → (c.setTemperature T).2 = .ok () ∧
      (∃ β, (c.setTemperature T).1.generic.get? "beta" = some (.float β) ∧ β * (8.617333262e-5 * T) = 1) ∧
      (∀ k, k ≠ "beta" → (c.setTemperature T).1.generic.get? k = c.generic.get? k) ∧
      (∀ g, g ≠ .generic → (c.setTemperature T).1.get g = c.get g)) ∧
    ((c.setTemperature 0) = (c, .error .zeroDivision)) := by
  have hK : Config.KB ≠ 0 := by unfold Config.KB; norm_num
  constructor
  · intro hT
    unfold Config.setTemperature
    rw [if_neg (mul_ne_zero hK hT)]
    refine ⟨rfl, ⟨_, PyDict.get?_set_self _ _ _, ?_⟩, ?_, ?_⟩
    · show 1.0 / (Config.KB * T) * (Config.KB * T) = 1
      rw [div_mul_cancel₀ _ (mul_ne_zero hK hT)]; norm_num
    · intro k hk
      exact PyDict.get?_set_of_ne _ _ hk
    · intro g hg
      cases g <;> first | rfl | exact absurd rfl hg
  · unfold Config.setTemperature
    rw [mul_zero, if_pos rfl]

theorem get?_erase_ne {V : Type*} (d : PyDict String V) {k k₂ : String} (h : k₂ ≠ k) : (d.erase k).get? k₂ = d.get? k₂ := by
  induction d with
  | nil => simp [PyDict.erase]
  | cons q d ih =>
    obtain ⟨k', v'⟩ := q
    by_cases hk : k' = k
    · subst hk
      simp [PyDict.erase, PyDict.get?_cons, Ne.symm h]
    · simp only [PyDict.erase, hk, if_false, PyDict.get?_cons, ih]

theorem untouched (g : Group) (k : String) (c : Config) (e : Edit) (h : ¬ e.touches g k) : ((Edit.apply c e).get g).get? k = (c.get g).get? k := by
  cases e with
  | set g' k' v =>
    by_cases hg : g' = g
    · subst hg
      have hk : k ≠ k' := fun hk => h ⟨rfl, hk.symm⟩
      have : (Edit.apply c (.set g' k' v)).get g' = (c.get g').set k' v := by cases g' <;> rfl
      rw [this, PyDict.get?_set_of_ne _ _ hk]
    · cases g' <;> cases g <;> first | rfl | exact absurd rfl hg
  | pop g' k' =>
    by_cases hg : g' = g
    · subst hg
      have hk : k ≠ k' := fun hk => h ⟨rfl, hk.symm⟩
      have : (Edit.apply c (.pop g' k')).get g' = (c.get g').erase k' := by cases g' <;> rfl
      rw [this, get?_erase_ne _ hk]
    · cases g' <;> cases g <;> first | rfl | exact absurd rfl hg
  | assign g' d =>
    cases g' <;> cases g <;> first | rfl | exact absurd rfl h
  | temperature T =>
    simp only [Edit.apply, Config.setTemperature]
    split_ifs
    · rfl
    · cases g <;> try rfl
      have hk : k ≠ "beta" := fun hk => h ⟨rfl, hk⟩
      exact PyDict.get?_set_of_ne _ _ hk

/-- **C106 (defaults).** A parameter which the user has not touched has the documented default value, whatever they did to others.

Partial: the full property includes `Bessel_max`, which is documented as 100 and is 250; see `C106_bessel_max`. -/
theorem C106_defaults_partial (es : List Edit) (g : Group) (k : String) (hk : k ≠ "Bessel_max") (v : ParamVal)
    (hd : documented g k = some v) (h : ∀ e ∈ es, ¬ e.touches g k) : ((edited Config.init es).get g).get? k = some v := by
  have h1 : ((edited Config.init es).get g).get? k = (Config.init.get g).get? k := by
    have : ∀ c : Config, ((edited c es).get g).get? k = (c.get g).get? k := by
      induction es with
      | nil => intro c; rfl
      | cons e es ih =>
        intro c
        have h2 := ih (fun e he => h e (List.mem_cons_of_mem _ he)) (Edit.apply c e)
        exact h2.trans (untouched g k c e (h e List.mem_cons_self))
    exact this _
  rw [h1, ← hd]
  have h3 : (1.0 : ℝ) = 1 := by norm_num
  unfold documented at hd ⊢
  split at hd
  case h_1 => exact absurd rfl hk
  case h_26 => cases hd
  all_goals simp [Config.init, Config.setLegalParams, Config.get, PyDict.get?_cons, Config.KB, h3]
  intro a _
  rw [sub_eq_neg_add, mul_comm]

/-- The exception: the documentation promises 100, a new configuration has 250. -/
theorem C106_bessel_max : documented .generic "Bessel_max" = some (.int 100) ∧ (Config.init.get .generic).get? "Bessel_max" = some (.int 250) :=
  ⟨rfl, by simp [Config.init, Config.setLegalParams, Config.get, PyDict.get?_cons]⟩

/-- Every name of a configuration has a documented default. -/
theorem C106_all_documented (g : Group) (k : String) : k ∈ names g ↔ documented g k ≠ none := by
  constructor
  · cases g <;> simp only [names, List.mem_cons, List.not_mem_nil, or_false] <;> intro h
    · rcases h with rfl | rfl | rfl | rfl | rfl | rfl | rfl | rfl | rfl | rfl | rfl | rfl <;> simp [documented]
    · rcases h with rfl | rfl | rfl | rfl <;> simp [documented]
    · subst h; simp [documented]
    · subst h; simp [documented]
    · rcases h with rfl | rfl | rfl <;> simp [documented]
    · rcases h with rfl | rfl | rfl | rfl <;> simp [documented]
  · unfold documented
    split <;> simp [names]

/-- A history which leaves most parameters alone. -/
example : ((edited Config.init [.temperature 10, .set .generic "seed" (.int 4), .assign .dckb []]).get .generic).get? "nr_time_steps" = some (.int 1024) :=
  C106_defaults_partial _ _ _ (by decide) _ rfl (by simp [Edit.touches])

/-- A history the first theorem speaks about: the name used in the documentation,
`nr_ran_samples`, is refused. -/
example : (edited Config.init [.temperature 10, .set .generic "nr_ran_samples" (.int 4)]).checkParams ≠ .ok () := by
  intro H
  have := (C106_check_partial _).1.1 H .generic (by simp [checkedGroups]) "nr_ran_samples"
    (by simp [edited, Edit.apply, Config.put, Config.get, PyDict.mem_keys_set])
  revert this; decide

end Verif.Props

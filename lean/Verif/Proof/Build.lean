import Verif.Model.Materials
import Verif.Proof.Hopping
import Verif.Proof.Prim
import Verif.Proof.PrimSync
import Verif.Spec.Prim
import Verif.Spec.Reshape
import Verif.Model.Bloch

/-! # Cells built by a list of `add_orbital` and `add_hopping` calls -/

namespace Verif.Materials

open PrimCell

variable {F E Λ : Type*} [Field F] [DecidableEq F] [InvolutiveStar E]

/-- The completed cell index. -/
def cellOf (rn : List ℤ) : Cell := (checkLen 0 rn).getD 0

theorem runOk_cons_ok {H : HashFns F E Λ} {s s' : PrimCell F E Λ} {op : Op F E Λ} (ops : List (Op F E Λ))
    (h : step H s op = (s', .ok ())) : runOk H s (op :: ops) = runOk H s' ops := by
  rw [runOk, h]

theorem runOk_append (H : HashFns F E Λ) (s : PrimCell F E Λ) (l1 l2 : List (Op F E Λ)) (s' : PrimCell F E Λ)
    (h : runOk H s l1 = .ok s') : runOk H s (l1 ++ l2) = runOk H s' l2 := by
  induction l1 generalizing s with
  | nil => simp only [runOk, Except.ok.injEq] at h; subst h; rfl
  | cons op ops ih =>
    rw [List.cons_append]
    cases hs : step H s op with
    | mk a r =>
      cases r with
      | error e => rw [runOk, hs] at h; simp at h
      | ok u =>
        rw [runOk_cons_ok ops hs] at h
        rw [runOk_cons_ok _ hs]
        exact ih a h

theorem runOk_run (H : HashFns F E Λ) (s : PrimCell F E Λ) (l : List (Op F E Λ)) (s' : PrimCell F E Λ)
    (h : runOk H s l = .ok s') : s' = run H s (l.map Sum.inl) := by
  induction l generalizing s with
  | nil => simp only [runOk, Except.ok.injEq] at h; subst h; rfl
  | cons op ops ih =>
    unfold runOk at h
    cases hs : step H s op with
    | mk a r =>
      cases r with
      | error e => rw [hs] at h; simp at h
      | ok u =>
        rw [hs] at h
        have := ih a h
        rw [this]
        simp [run, call, hs]

theorem runOk_orbs (H : HashFns F E Λ) (l : List (List F × F × Λ)) (s : PrimCell F E Λ) (hl : s.locked = false)
    (hv : ∀ q ∈ l, checkLen 0 q.1 ≠ none) :
    runOk H s (l.map fun q => .addOrbital q.1 q.2.1 q.2.2) =
      .ok { s with orbs := s.orbs ++ l.map fun q => ⟨vec3 ((checkLen 0 q.1).getD 0), q.2.1, q.2.2⟩ } := by
  induction l generalizing s with
  | nil => simp [runOk]
  | cons q l ih =>
    obtain ⟨p, hp⟩ := Option.ne_none_iff_exists'.1 (hv q List.mem_cons_self)
    have hs : step H s (.addOrbital q.1 q.2.1 q.2.2) = ({ s with orbs := s.orbs ++ [⟨vec3 p, q.2.1, q.2.2⟩] }, .ok ()) := by
      simp [step, addOrbital, hl, hp]
    rw [List.map_cons, runOk_cons_ok _ hs, ih { s with orbs := s.orbs ++ [⟨vec3 p, q.2.1, q.2.2⟩] } hl
      (fun q' hq' => hv q' (List.mem_cons_of_mem _ hq'))]
    simp [hp]

/-- A legal hopping of a cell with `n` orbitals. -/
def HopOk (n : ℕ) (q : List ℤ × ℤ × ℤ × E) : Prop :=
  checkLen 0 q.1 ≠ none ∧ (0 ≤ q.2.1 ∧ q.2.1 < n) ∧ (0 ≤ q.2.2.1 ∧ q.2.2.1 < n) ∧ ¬ (cellOf q.1 = 0 ∧ q.2.1 = q.2.2.1)

theorem runOk_hops (H : HashFns F E Λ) (l : List (List ℤ × ℤ × ℤ × E)) (s : PrimCell F E Λ) (hl : s.locked = false)
    (hv : ∀ q ∈ l, HopOk s.numOrb q) :
    runOk H s (l.map fun q => .addHopping q.1 q.2.1 q.2.2.1 q.2.2.2) =
      .ok { s with hops := l.foldl (fun h q => h.add (cellOf q.1) q.2.1 q.2.2.1 q.2.2.2) s.hops } := by
  induction l generalizing s with
  | nil => simp [runOk]
  | cons q l ih =>
    obtain ⟨h1, h2, h3, h4⟩ := hv q List.mem_cons_self
    obtain ⟨p, hp⟩ := Option.ne_none_iff_exists'.1 h1
    have hc : cellOf q.1 = p := by simp [cellOf, hp]
    rw [hc] at h4
    have hci : checkHopIndex s q.1 q.2.1 q.2.2.1 = .ok p := by
      unfold checkHopIndex
      rw [hp]
      simp only
      rw [if_neg (not_not.2 h2), if_neg (not_not.2 h3), if_neg (show ¬ (p = (0, 0, 0) ∧ _) from h4)]
    have hs : step H s (.addHopping q.1 q.2.1 q.2.2.1 q.2.2.2) =
        ({ s with hops := s.hops.add p q.2.1 q.2.2.1 q.2.2.2 }, .ok ()) := by
      simp [step, addHopping, hl, hci]
    rw [List.map_cons, runOk_cons_ok _ hs, ih { s with hops := s.hops.add p q.2.1 q.2.2.1 q.2.2.2 } hl
      (fun q' hq' => hv q' (List.mem_cons_of_mem _ hq'))]
    simp [hc]

/-- The hopping map of a list of legal hoppings. -/
theorem get_foldl_add (l : List (List ℤ × ℤ × ℤ × E)) (n : ℕ) (hv : ∀ q ∈ l, HopOk n q) (h : IntraHop E) :
    (l.foldl (fun h q => h.add (cellOf q.1) q.2.1 q.2.2.1 q.2.2.2) h).get =
      l.foldl (fun m q => HopMap.add m (cellOf q.1) q.2.1 q.2.2.1 q.2.2.2) h.get := by
  induction l generalizing h with
  | nil => rfl
  | cons q l ih =>
    rw [List.foldl_cons, List.foldl_cons, ih (fun q' hq' => hv q' (List.mem_cons_of_mem _ hq')),
      IntraHop.get_add _ _ _ _ (hv q List.mem_cons_self).2.2.2]

theorem get_empty (R : Cell) (i j : ℤ) : (IntraHop.empty : IntraHop E).get R i j = none := by
  simp [IntraHop.get, IntraHop.empty, PyDict.get?]

/-- What a list of legal calls builds. -/
theorem build_spec (H : HashFns F E Λ) (lat : Mat3 F) (o : Vec3 F) (orbs : List (List F × F × Λ))
    (hops : List (List ℤ × ℤ × ℤ × E)) (ho : ∀ q ∈ orbs, checkLen 0 q.1 ≠ none) (hh : ∀ q ∈ hops, HopOk orbs.length q)
    (ops : List (Op F E Λ)) (hops' : ops = (orbs.map fun q => .addOrbital q.1 q.2.1 q.2.2) ++
      hops.map fun q => .addHopping q.1 q.2.1 q.2.2.1 q.2.2.2) :
    ∃ s, runOk H (init H lat o) ops = .ok s ∧ s.lat = lat ∧ s.origin = o ∧
      s.orbs = (orbs.map fun q => ⟨vec3 ((checkLen 0 q.1).getD 0), q.2.1, q.2.2⟩) ∧
      s.hops.get = hops.foldl (fun m q => HopMap.add m (cellOf q.1) q.2.1 q.2.2.1 q.2.2.2) (fun _ _ _ => none) ∧
      s = run H (init H lat o) (ops.map Sum.inl) ∧ InRange H (init H lat o) (ops.map Sum.inl) ∧
      s.locked = false ∧ s.hashOrb = H.orb [] ∧ s.hashHop = H.hop [] := by
  have h1 := runOk_orbs H orbs (init H lat o) rfl ho
  have h2 := runOk_hops H hops { init H lat o with orbs := (init H lat o).orbs ++ orbs.map fun q => ⟨vec3 ((checkLen 0 q.1).getD 0), q.2.1, q.2.2⟩ }
    rfl (by simpa [numOrb, init] using hh)
  have h3 := runOk_append H (init H lat o) _ (hops.map fun q => .addHopping q.1 q.2.1 q.2.2.1 q.2.2.2) _ h1
  rw [h2, ← hops'] at h3
  refine ⟨_, h3, rfl, rfl, by simp [init], ?_, runOk_run _ _ _ _ h3, ?_, rfl, rfl, rfl⟩
  · simp only
    rw [get_foldl_add hops _ hh]
    rfl
  · intro pre op post he
    have hm : Sum.inl op ∈ ops.map (Sum.inl : Op F E Λ → Call F E Λ) := by rw [he]; simp
    obtain ⟨op', hm', e⟩ := List.mem_map.1 hm
    obtain rfl := Sum.inl.inj e
    rw [hops', List.mem_append, List.mem_map, List.mem_map] at hm'
    rcases hm' with ⟨q, -, rfl⟩ | ⟨q, -, rfl⟩ <;> trivial

/-- The numpy arrays and the Bloch matrix of a built cell, for hash functions that distinguish the lists from empty ones. -/
theorem build_ham {H : HashFns ℝ ℂ Λ} {s : PrimCell ℝ ℂ Λ} (hw : WF s) (hO : ∀ l, l ≠ [] → H.orb l ≠ H.orb [])
    (hP : ∀ l, l ≠ [] → H.hop l ≠ H.hop []) (h1 : s.hashOrb = H.orb []) (h2 : s.hashHop = H.hop []) (hn : s.orbs ≠ [])
    (R0 : Cell) (i0 j0 : ℤ) (hg : s.hops.get R0 i0 j0 ≠ none) :
    WF (syncArray H s) ∧ ArraysFresh (syncArray H s) ∧ (syncArray H s).orbs = s.orbs ∧
      (syncArray H s).hops.get = s.hops.get ∧ (syncArray H s).lat = s.lat ∧
      (∀ k conv, conv = 1 ∨ conv = 2 → ∃ ham, setHamDense (syncArray H s) k conv = .ok ham) ∧ SyncFresh H s := by
  have htl : s.hops.toList ≠ [] := by
    intro h
    apply hg
    rw [IntraHop.get_eq_look']
    have : ∀ p : Cell × Pair, IntraHop.look s.hops p.1 p.2 = none := by
      intro p
      cases hl : IntraHop.look s.hops p.1 p.2 with
      | none => rfl
      | some e =>
        have := (IntraHop.mem_toList hw.inv p.1 p.2 e).2 hl
        rw [h] at this
        simp at this
    simp [this (IntraHop.nkey R0 i0 j0)]
  have e1 : syncOrb H s false = { s with
      hashOrb := H.orb s.orbs
      arrPos := s.orbs.map Orbital.position
      arrEng := s.orbs.map Orbital.energy } := by
    unfold syncOrb
    have : s.hashOrb ≠ H.orb s.orbs := by rw [h1]; exact (hO _ hn).symm
    simp [this]
  have e2 : syncArray H s = { s with
      hashOrb := H.orb s.orbs
      arrPos := s.orbs.map Orbital.position
      arrEng := s.orbs.map Orbital.energy
      hashHop := H.hop s.hops.toList
      hops := s.hops.purge
      arrInd := s.hops.toList.map (fun t => (t.1, t.2.1))
      arrHop := s.hops.toList.map (fun t => t.2.2) } := by
    unfold syncArray
    rw [e1]
    unfold syncHop
    have : s.hashHop ≠ H.hop s.hops.toList := by rw [h2]; exact (hP _ htl).symm
    simp [this]
  have hpp : s.hops.purge.toList = s.hops.toList := by
    exact toList_purge _
  have hsf : SyncFresh H s := by
    refine ⟨by rw [e1], ?_, ?_⟩
    · exact congrArg PrimCell.arrInd e2
    · exact congrArg PrimCell.arrHop e2
  rw [e2]
  refine ⟨⟨IntraHop.Inv_purge hw.inv, ?_⟩, ⟨rfl, rfl, ?_, ?_⟩, rfl, IntraHop.get_purge hw.inv, rfl, ?_, hsf⟩
  · intro R i j e h
    simp only at h
    rw [IntraHop.look_purge hw.inv] at h
    exact hw.rng R i j e h
  · simp only [hpp]
  · simp only [hpp]
  · intro k conv hc
    unfold setHamDense
    rw [if_neg (not_not.2 hc), if_neg, if_neg]
    · exact ⟨_, rfl⟩
    · simp only
      rw [← IntraHop.length_toList, hpp]
      exact fun h => htl (List.length_eq_zero_iff.1 h)
    · exact fun h => hn (List.length_eq_zero_iff.1 h)

end Verif.Materials

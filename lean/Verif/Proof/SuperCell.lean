import Verif.Spec.SuperCell
import Verif.Proof.SuperHop
import Verif.Proof.PrimSync

/-! # Invariants of supercell objects -/

namespace Verif
namespace PrimCell

variable {F E Λ : Type*} [Field F] [DecidableEq F] [InvolutiveStar E]

theorem syncOrb_fresh {H : HashFns F E Λ} {s : PrimCell F E Λ} (h : SyncOK H s) (f : Bool) :
    (syncOrb H s f).arrPos = s.orbs.map Orbital.position ∧
    (syncOrb H s f).arrEng = s.orbs.map Orbital.energy := by
  unfold syncOrb
  simp only
  split_ifs with hc
  · exact ⟨rfl, rfl⟩
  · apply h.orb
    by_contra hne
    exact hc (Or.inr hne)

theorem syncHop_fresh {H : HashFns F E Λ} {s : PrimCell F E Λ} (h : SyncOK H s) (f : Bool) :
    (syncHop H s f).arrInd = s.hops.toList.map (fun t => (t.1, t.2.1)) ∧
    (syncHop H s f).arrHop = s.hops.toList.map (fun t => t.2.2) := by
  unfold syncHop
  simp only
  split_ifs with hc
  · exact ⟨rfl, rfl⟩
  · apply h.hop
    by_contra hne
    exact hc (Or.inr hne)

/-- Content of a cell that locking protects. -/
structure SameContent (s s' : PrimCell F E Λ) : Prop where
  lat : s'.lat = s.lat
  origin : s'.origin = s.origin
  orbs : s'.orbs = s.orbs
  toList : s'.hops.toList = s.hops.toList

theorem SameContent.refl (s : PrimCell F E Λ) : SameContent s s := ⟨rfl, rfl, rfl, rfl⟩

theorem SameContent.trans {a b c : PrimCell F E Λ} (h : SameContent a b) (h' : SameContent b c) :
    SameContent a c :=
  ⟨h'.lat.trans h.lat, h'.origin.trans h.origin, h'.orbs.trans h.orbs, h'.toList.trans h.toList⟩

theorem syncOrb_rest (H : HashFns F E Λ) (s : PrimCell F E Λ) (f : Bool) :
    (syncOrb H s f).locked = s.locked ∧ (syncOrb H s f).lat = s.lat ∧ (syncOrb H s f).origin = s.origin ∧
    (syncOrb H s f).orbs = s.orbs ∧ (syncOrb H s f).hops = s.hops ∧ (syncOrb H s f).hashHop = s.hashHop ∧
    (syncOrb H s f).arrInd = s.arrInd ∧ (syncOrb H s f).arrHop = s.arrHop ∧
    (syncOrb H s f).hashOrb = H.orb s.orbs := by
  unfold syncOrb; simp only; split_ifs <;> simp

theorem syncHop_rest (H : HashFns F E Λ) (s : PrimCell F E Λ) (f : Bool) :
    (syncHop H s f).locked = s.locked ∧ (syncHop H s f).lat = s.lat ∧ (syncHop H s f).origin = s.origin ∧
    (syncHop H s f).orbs = s.orbs ∧ (syncHop H s f).hops = s.hops.purge ∧
    (syncHop H s f).hashOrb = s.hashOrb ∧
    (syncHop H s f).arrPos = s.arrPos ∧ (syncHop H s f).arrEng = s.arrEng ∧
    (syncHop H s f).hashHop = H.hop s.hops.toList := by
  unfold syncHop; simp only; split_ifs <;> simp

theorem same_syncOrb (H : HashFns F E Λ) (s : PrimCell F E Λ) (f : Bool) :
    SameContent s (syncOrb H s f) := by
  obtain ⟨-, h1, h2, h3, h4, -⟩ := syncOrb_rest H s f
  exact ⟨h1, h2, h3, by rw [h4]⟩

theorem same_syncHop (H : HashFns F E Λ) (s : PrimCell F E Λ) (f : Bool) :
    SameContent s (syncHop H s f) := by
  obtain ⟨-, h1, h2, h3, h4, -⟩ := syncHop_rest H s f
  exact ⟨h1, h2, h3, by rw [h4, toList_purge]⟩

theorem syncOK_syncOrb {H : HashFns F E Λ} {s : PrimCell F E Λ} (h : SyncOK H s) (f : Bool) :
    SyncOK H (syncOrb H s f) := by
  obtain ⟨-, -, -, h3, h4, h5, h6, h7, -⟩ := syncOrb_rest H s f
  constructor
  · intro _; rw [h3]; exact syncOrb_fresh h f
  · rw [h4, h5, h6, h7]; exact h.hop

theorem syncOK_syncHop {H : HashFns F E Λ} {s : PrimCell F E Λ} (h : SyncOK H s) (f : Bool) :
    SyncOK H (syncHop H s f) := by
  obtain ⟨-, -, -, h3, h4, h5, h6, h7, -⟩ := syncHop_rest H s f
  constructor
  · rw [h3, h5, h6, h7]; exact h.orb
  · intro _; rw [h4, toList_purge]; exact syncHop_fresh h f

theorem locked_call {H : HashFns F E Λ} {s : PrimCell F E Λ} (hl : s.locked = true) (h : SyncOK H s)
    (c : Call F E Λ) : (call H s c).locked = true ∧ SyncOK H (call H s c) ∧ SameContent s (call H s c) := by
  cases c with
  | inl op =>
    have : step H s op = (s, .error .lock) := by
      cases op <;>
        simp [step, addOrbital, addOrbitalCart, setOrbital, setOrbitalCart, removeOrbital,
          PrimCell.removeOrbitals, addHopping, addHoppingDict, removeHopping, trim, applyPbc,
          resetLattice, hl]
    simp only [call, this]
    exact ⟨hl, h, SameContent.refl s⟩
  | inr r =>
    cases r with
    | syncOrb f =>
      exact ⟨by rw [call, PrimCell.read, (syncOrb_rest H s f).1, hl], syncOK_syncOrb h f, same_syncOrb H s f⟩
    | syncHop f =>
      exact ⟨by rw [call, PrimCell.read, (syncHop_rest H s f).1, hl], syncOK_syncHop h f, same_syncHop H s f⟩

theorem WF_reduced {s : PrimCell F E Λ} (h : WF s) : Reduced s.hops.toList ∧ HopsInRange s.numOrb s.hops.toList := by
  have hm : ∀ t ∈ s.hops.toList, IntraHop.look s.hops t.1 t.2.1 = some t.2.2 := by
    rintro ⟨R, p, e⟩ ht
    exact (IntraHop.mem_toList h.inv R p e).1 ht
  refine ⟨⟨IntraHop.toList_keys_nodup h.inv, ?_, ?_⟩, ?_⟩
  · rintro ⟨R, ⟨i, j⟩, e⟩ ht
    exact (h.rng R i j e (hm _ ht)).2.2
  · rintro ⟨R, ⟨i, j⟩, e⟩ ht ⟨R', ⟨i', j'⟩, e'⟩ hu ⟨h1, h2⟩
    simp only [Prod.mk.injEq] at h1 h2
    obtain ⟨rfl, rfl⟩ := h2
    subst h1
    have n1 := IntraHop.look_norm h.inv (hm _ ht)
    have n2 := IntraHop.look_norm h.inv (hm _ hu)
    have := checkConj_swap (h.rng _ _ _ _ (hm _ ht)).2.2
    simp only at n1 n2
    simp [n1, n2] at this
  · rintro ⟨R, ⟨i, j⟩, e⟩ ht
    have := h.rng R i j e (hm _ ht)
    exact ⟨this.1, this.2.1⟩

end PrimCell

namespace SCell

variable {F E Λ : Type*} [Field F] [DecidableEq F] [InvolutiveStar E]

theorem checkIdPc_ok (d : Dim) (n : ℕ) (v : List ℤ) (q : IdPc) :
    checkIdPc d n v = .ok q ↔ v = [q.1, q.2.1, q.2.2.1, q.2.2.2] ∧ LegalId d n q := by
  obtain ⟨a, b, c, o⟩ := q
  constructor
  · intro h
    unfold checkIdPc at h
    split at h
    · split_ifs at h with h1 h2 h3 h4
      simp only [Except.ok.injEq, Prod.mk.injEq] at h
      obtain ⟨rfl, rfl, rfl, rfl⟩ := h
      exact ⟨rfl, h1, h2, h3, h4⟩
    · exact absurd h (by simp)
  · rintro ⟨rfl, h1, h2, h3, h4⟩
    simp only at h1 h2 h3 h4
    simp [checkIdPc, h1, h2, h3, h4]

theorem checkIdPc_isSome (d : Dim) (n : ℕ) (q : IdPc) :
    (checkIdPc d n [q.1, q.2.1, q.2.2.1, q.2.2.2]).toOption.isSome = true ↔ LegalId d n q := by
  constructor
  · intro h
    cases hc : checkIdPc d n [q.1, q.2.1, q.2.2.1, q.2.2.2] with
    | error e => rw [hc] at h; simp [Except.toOption] at h
    | ok p =>
      obtain ⟨h1, h2⟩ := (checkIdPc_ok d n _ p).1 hc
      simp only [List.cons.injEq, and_true] at h1
      have : p = q := by
        obtain ⟨p1, p2, p3, p4⟩ := p
        obtain ⟨q1, q2, q3, q4⟩ := q
        simp only at h1
        simp [h1]
      rwa [this] at h2
  · intro h
    rw [(checkIdPc_ok d n _ q).2 ⟨rfl, h⟩]; rfl

theorem legalVacs_setAdd {d : Dim} {n : ℕ} {vacs : List IdPc} (h : LegalVacs d n vacs) {q : IdPc}
    (hq : LegalId d n q) : LegalVacs d n (setAdd vacs q) := by
  unfold setAdd
  split_ifs with hm
  · exact h
  · refine ⟨?_, ?_⟩
    · rw [List.nodup_append]
      exact ⟨h.nodup, by simp, by rintro a ha b hb rfl; simp at hb; exact hm (hb ▸ ha)⟩
    · intro p hp
      rw [List.mem_append, List.mem_singleton] at hp
      rcases hp with hp | rfl
      · exact h.legal p hp
      · exact hq

theorem mem_setAdd (vacs : List IdPc) (q p : IdPc) : p ∈ setAdd vacs q ↔ p ∈ vacs ∨ p = q := by
  unfold setAdd
  split_ifs with hm
  · constructor
    · exact Or.inl
    · rintro (h | rfl); exacts [h, hm]
  · simp

theorem addVacLoop_legal {d : Dim} {n : ℕ} : ∀ (vs : List (List ℤ)) {vacs : List IdPc},
    LegalVacs d n vacs → LegalVacs d n (addVacLoop d n vacs vs).1
  | [], _, h => h
  | v :: vs, vacs, h => by
    unfold addVacLoop
    cases hc : checkIdPc d n v with
    | error e => exact h
    | ok q => exact addVacLoop_legal vs (legalVacs_setAdd h ((checkIdPc_ok d n v q).1 hc).2)

theorem addVacLoop_mem {d : Dim} {n : ℕ} : ∀ (qs : List IdPc) (vacs : List IdPc), (∀ q ∈ qs, LegalId d n q) →
    (addVacLoop d n vacs (qs.map (fun q => [q.1, q.2.1, q.2.2.1, q.2.2.2]))).2 = .ok () ∧
    ∀ p, p ∈ (addVacLoop d n vacs (qs.map (fun q => [q.1, q.2.1, q.2.2.1, q.2.2.2]))).1 ↔ p ∈ vacs ∨ p ∈ qs
  | [], vacs, _ => by simp [addVacLoop]
  | q :: qs, vacs, h => by
    rw [List.map_cons]
    unfold addVacLoop
    rw [(checkIdPc_ok d n _ q).2 ⟨rfl, h q (by simp)⟩]
    obtain ⟨h1, h2⟩ := addVacLoop_mem qs (setAdd vacs q) (fun p hp => h p (by simp [hp]))
    refine ⟨h1, fun p => ?_⟩
    rw [h2, mem_setAdd]; simp [or_assoc]

/-- Invariant of a supercell whose primitive cell stays locked. -/
structure Good (H : HashFns F E Λ) (HS : SCHash F E Λ) (V : Set (List IdPc)) (pc0 : PrimCell F E Λ)
    (s : SCell F E Λ) : Prop where
  locked : s.pc.locked = true
  sync : PrimCell.SyncOK H s.pc
  same : PrimCell.SameContent pc0 s.pc
  pos : s.dim.Pos
  legal : LegalVacs s.dim s.pc.numOrb s.vacs
  big : LargeEnough s.dim pc0.hops.toList
  minv : IntraHop.Inv s.modi
  cache : ∃ v0 ∈ V, s.hashVac = HS.vac v0 ∧ s.vacSc = vacIdSc s.dim s.pc.numOrb v0 ∧
    s.orbId = buildOrbIdPc s.dim s.pc.numOrb s.vacSc

theorem vacIdSc_perm {d : Dim} {n : ℕ} {v w : List IdPc} (h : v.Perm w) : vacIdSc d n v = vacIdSc d n w := by
  unfold vacIdSc
  apply List.Perm.eq_of_pairwise (le := (· ≤ ·)) (fun a b _ _ h1 h2 => le_antisymm h1 h2)
    (List.pairwise_insertionSort _ _) (List.pairwise_insertionSort _ _)
  exact ((List.perm_insertionSort _ _).trans (h.map _)).trans (List.perm_insertionSort _ _).symm

theorem good_sync {H : HashFns F E Λ} {HS : SCHash F E Λ} {V : Set (List IdPc)} {pc0 : PrimCell F E Λ}
    {s : SCell F E Λ} (hV : VacHashOK HS V) (h : Good H HS V pc0 s) (hs : s.vacs ∈ V) (f : Bool) :
    Good H HS V pc0 (syncArray HS s f).1 ∧ (syncArray HS s f).1.vacs = s.vacs ∧
    (syncArray HS s f).1.modi = s.modi ∧ (syncArray HS s f).1.dim = s.dim ∧
    (syncArray HS s f).1.pbc = s.pbc ∧ (syncArray HS s f).1.posMod = s.posMod ∧
    (syncArray HS s f).1.locked = s.locked ∧ (syncArray HS s f).1.pc = s.pc ∧
    ((syncArray HS s f).2 = .ok () → Fresh (syncArray HS s f).1) := by
  unfold syncArray
  cases hv : verifyPc s.pc with
  | error e => simp only; exact ⟨h, by simp⟩
  | ok u =>
    simp only
    have hall : s.vacs.all (fun q =>
        (checkIdPc s.dim s.pc.numOrb [q.1, q.2.1, q.2.2.1, q.2.2.2]).toOption.isSome) = true := by
      rw [List.all_eq_true]
      intro q hq
      exact (checkIdPc_isSome _ _ q).2 (h.legal.legal q hq)
    have hlk : ({ s.pc with locked := true } : PrimCell F E Λ) = s.pc := by
      have := h.locked
      cases hpc : s.pc; rw [hpc] at this; simp only at this; rw [this]
    by_cases hc : f = true ∨ s.hashPc ≠ HS.pc s.pc ∨ s.hashVac ≠ HS.vac s.vacs
    · rw [if_pos hc, if_neg (by rw [hall]; simp)]
      have hvs : (if s.vacs.length = 0 then [] else vacIdSc s.dim s.pc.numOrb s.vacs)
          = vacIdSc s.dim s.pc.numOrb s.vacs := by
        split_ifs with h0
        · rw [List.length_eq_zero_iff.1 h0]; rfl
        · rfl
      simp only [hvs, hlk]
      exact ⟨⟨h.locked, h.sync, h.same, h.pos, h.legal, h.big, h.minv, s.vacs, hs, rfl, rfl, rfl⟩,
        trivial, trivial, trivial, trivial, trivial, trivial, trivial, fun _ => ⟨rfl, rfl⟩⟩
    · rw [if_neg hc]
      push Not at hc
      obtain ⟨v0, hv0, h1, h2, h3⟩ := h.cache
      have hp : v0.Perm s.vacs := hV v0 hv0 s.vacs hs (h1 ▸ hc.2.2)
      simp only
      refine ⟨⟨h.locked, h.sync, h.same, h.pos, h.legal, h.big, h.minv, s.vacs, hs, rfl, ?_, h3⟩,
        trivial, trivial, trivial, trivial, trivial, trivial, trivial, fun _ => ⟨?_, h3⟩⟩
      · rw [h2, vacIdSc_perm hp]
      · rw [h2, vacIdSc_perm hp]

theorem good_addVac {H : HashFns F E Λ} {HS : SCHash F E Λ} {V : Set (List IdPc)} {pc0 : PrimCell F E Λ}
    {s : SCell F E Λ} (h : Good H HS V pc0 s) (vs : List (List ℤ)) :
    Good H HS V pc0 (addVacancies s vs).1 := by
  unfold addVacancies
  split_ifs
  · exact h
  · exact ⟨h.locked, h.sync, h.same, h.pos, addVacLoop_legal vs h.legal, h.big, h.minv, h.cache⟩

theorem good_setVac {H : HashFns F E Λ} {HS : SCHash F E Λ} {V : Set (List IdPc)} {pc0 : PrimCell F E Λ}
    {s : SCell F E Λ} (h : Good H HS V pc0 s) (vs : Option (List (List ℤ))) :
    Good H HS V pc0 (setVacancies s vs).1 := by
  unfold setVacancies
  split_ifs
  · exact h
  · have h' : Good H HS V pc0 { s with vacs := [] } :=
      ⟨h.locked, h.sync, h.same, h.pos, ⟨by simp, by simp⟩, h.big, h.minv, h.cache⟩
    cases vs with
    | none => exact h'
    | some vs => exact good_addVac h' vs

theorem getHop_state (H : HashFns F E Λ) (HS : SCHash F E Λ) (s : SCell F E Λ) :
    (getHop H HS s).1 = (syncArray HS s false).1 := by
  unfold getHop
  split <;> simp_all

theorem trim_state (H : HashFns F E Λ) (HS : SCHash F E Λ) (s : SCell F E Λ) :
    (trim H HS s).1 = s ∨ (trim H HS s).1 = (syncArray HS s false).1 ∨
    ∃ vs m, ((∃ L, m = (addVacancies (syncArray HS s false).1 vs).1.modi.removeOrbitals L) ∨
        m = (addVacancies (syncArray HS s false).1 vs).1.modi) ∧
      (trim H HS s).1 = { (addVacancies (syncArray HS s false).1 vs).1 with modi := m } := by
  unfold trim
  split_ifs with hl
  · exact Or.inl rfl
  · have hg := getHop_state H HS s
    rcases hgh : getHop H HS s with ⟨s1, r⟩
    rw [hgh] at hg
    simp only at hg
    subst hg
    cases r with
    | error e => exact Or.inr (Or.inl rfl)
    | ok out =>
      simp only
      split_ifs
      · exact Or.inr (Or.inl rfl)
      · cases pc2scArray (syncArray HS s false).1 (getOrbIdTrim (syncArray HS s false).1.orbId out.terms) with
        | error e => exact Or.inr (Or.inl rfl)
        | ok scs =>
          right; right
          simp only
          set vs := List.map (fun q : IdPc => [q.1, q.2.1, q.2.2.1, q.2.2.2])
            (getOrbIdTrim (syncArray HS s false).1.orbId out.terms)
          rcases ha : addVacancies (syncArray HS s false).1 vs with ⟨s2, r2⟩
          cases r2 with
          | error e => exact ⟨vs, s2.modi, Or.inr (by rw [ha]), by rw [ha]⟩
          | ok u => exact ⟨vs, _, Or.inl ⟨scs, by rw [ha]⟩, by rw [ha]⟩

theorem good_modi {H : HashFns F E Λ} {HS : SCHash F E Λ} {V : Set (List IdPc)} {pc0 : PrimCell F E Λ}
    {s : SCell F E Λ} (h : Good H HS V pc0 s) {m : IntraHop E} (hm : IntraHop.Inv m) :
    Good H HS V pc0 { s with modi := m } :=
  ⟨h.locked, h.sync, h.same, h.pos, h.legal, h.big, hm, h.cache⟩

theorem good_step {H : HashFns F E Λ} {HS : SCHash F E Λ} {V : Set (List IdPc)} {pc0 : PrimCell F E Λ}
    {s : SCell F E Λ} (hV : VacHashOK HS V) (h : Good H HS V pc0 s) (hs : s.vacs ∈ V) (op : Op F E Λ)
    (hop : op ≠ .pcUnlock) : Good H HS V pc0 (step H HS s op).1 := by
  cases op with
  | addVacancies vs => exact good_addVac h vs
  | setVacancies vs => exact good_setVac h vs
  | sync f => exact (good_sync hV h hs f).1
  | addHopping rn i j e =>
    unfold step addHopping
    cases hl : checkLen 0 rn with
    | none => simp only [hl]; split_ifs <;> exact h
    | some R =>
      simp only [hl]
      split_ifs <;> first | exact h | exact good_modi h (IntraHop.Inv_add h.minv _ _ _ _)
  | setPosMod f =>
    unfold step; simp only; split_ifs
    · exact h
    · exact ⟨h.locked, h.sync, h.same, h.pos, h.legal, h.big, h.minv, h.cache⟩
  | trim =>
    have hg := (good_sync hV h hs false).1
    unfold step
    rcases trim_state H HS s with e | e | ⟨vs, m, hm, e⟩
    · rw [e]; exact h
    · rw [e]; exact hg
    · rw [e]
      have hga := good_addVac hg vs
      refine good_modi hga ?_
      rcases hm with ⟨L, rfl⟩ | rfl
      · exact IntraHop.Inv_removeOrbitals hga.minv L
      · exact hga.minv
  | lock => exact ⟨h.locked, h.sync, h.same, h.pos, h.legal, h.big, h.minv, h.cache⟩
  | unlock => exact ⟨h.locked, h.sync, h.same, h.pos, h.legal, h.big, h.minv, h.cache⟩
  | pcCall c =>
    obtain ⟨h1, h2, h3⟩ := PrimCell.locked_call h.locked h.sync c
    have hn : (PrimCell.call H s.pc c).numOrb = s.pc.numOrb := by
      unfold PrimCell.numOrb; rw [h3.orbs]
    obtain ⟨v0, hv0, c1, c2, c3⟩ := h.cache
    refine ⟨h1, h2, h.same.trans h3, h.pos, ?_, h.big, h.minv, v0, hv0, c1, ?_, ?_⟩
    · simp only [step]; rw [hn]; exact h.legal
    · simp only [step]; rw [hn]; exact c2
    · simp only [step]; rw [hn]; exact c3
  | pcUnlock => exact absurd rfl hop

theorem run_snoc (H : HashFns F E Λ) (HS : SCHash F E Λ) (s : SCell F E Λ) (ops : List (Op F E Λ)) (op : Op F E Λ) :
    run H HS s (ops ++ [op]) = (step H HS (run H HS s ops) op).1 := by simp [run]

theorem good_run {H : HashFns F E Λ} {HS : SCHash F E Λ} {V : Set (List IdPc)} {pc0 : PrimCell F E Λ}
    {s : SCell F E Λ} (hV : VacHashOK HS V) (h : Good H HS V pc0 s) (ops : List (Op F E Λ))
    (hn : NoUnlock ops) (hvis : ∀ pre, pre <+: ops → (run H HS s pre).vacs ∈ V) :
    Good H HS V pc0 (run H HS s ops) := by
  induction ops using List.reverseRecOn with
  | nil => exact h
  | append_singleton ops op ih =>
    rw [run_snoc]
    refine good_step hV (ih (fun o ho => hn o (by simp [ho])) (fun pre hp => hvis pre ?_)) ?_ op (hn op (by simp))
    · exact hp.trans (List.prefix_append _ _)
    · exact hvis ops (List.prefix_append _ _)

/-! ## Constructor -/

theorem dimMin_le {col : List ℤ} {x : ℤ} (hx : x ∈ col) : 2 * |x| + 1 ≤ dimMin col := by
  unfold dimMin
  have hmin : ∃ a, col.min? = some a ∧ a ≤ x := by
    cases h : col.min? with
    | none => rw [List.min?_eq_none_iff] at h; rw [h] at hx; simp at hx
    | some a => exact ⟨a, rfl, (List.min?_eq_some_iff.1 h).2 x hx⟩
  have hmax : ∃ a, col.max? = some a ∧ x ≤ a := by
    cases h : col.max? with
    | none => rw [List.max?_eq_none_iff] at h; rw [h] at hx; simp at hx
    | some a => exact ⟨a, rfl, (List.max?_eq_some_iff.1 h).2 x hx⟩
  obtain ⟨a, ha, hax⟩ := hmin
  obtain ⟨b, hb, hxb⟩ := hmax
  rw [ha, hb]
  simp only [Option.getD_some]
  have : |x| ≤ max |a| |b| := by
    rcases le_total 0 x with h | h
    · exact le_trans (abs_le_abs_of_nonneg h hxb) (le_max_right _ _)
    · exact le_trans (abs_le_abs_of_nonpos h hax) (le_max_left _ _)
  omega

theorem dimMin_pos (col : List ℤ) : 1 ≤ dimMin col := by
  unfold dimMin
  have : 0 ≤ max |col.min?.getD 0| |col.max?.getD 0| := le_trans (abs_nonneg _) (le_max_left _ _)
  omega

theorem checkDim_ok {ind : List (Cell × Pair)} {dim : ℤ × ℤ × ℤ} {d : Dim} (h : checkDim ind dim = .ok d) :
    d.Pos ∧ (d.a : ℤ) = dim.1 ∧ (d.b : ℤ) = dim.2.1 ∧ (d.c : ℤ) = dim.2.2 ∧ ∀ t ∈ ind,
      2 * |t.1.1| + 1 ≤ d.a ∧ 2 * |t.1.2.1| + 1 ≤ d.b ∧ 2 * |t.1.2.2| + 1 ≤ d.c := by
  unfold checkDim at h
  simp only at h
  have p1 := dimMin_pos (ind.map (fun t => t.1.1))
  have p2 := dimMin_pos (ind.map (fun t => t.1.2.1))
  have p3 := dimMin_pos (ind.map (fun t => t.1.2.2))
  split_ifs at h with h1 h2 h3
  cases h
  push Not at *
  refine ⟨⟨?_, ?_, ?_⟩, by simp only; omega, by simp only; omega, by simp only; omega, fun t ht => ?_⟩
  iterate 3 simp only; omega
  have q1 := dimMin_le (col := ind.map (fun t => t.1.1)) (x := t.1.1) (List.mem_map.2 ⟨t, ht, rfl⟩)
  have q2 := dimMin_le (col := ind.map (fun t => t.1.2.1)) (x := t.1.2.1) (List.mem_map.2 ⟨t, ht, rfl⟩)
  have q3 := dimMin_le (col := ind.map (fun t => t.1.2.2)) (x := t.1.2.2) (List.mem_map.2 ⟨t, ht, rfl⟩)
  simp only
  omega

theorem syncOK_lock {H : HashFns F E Λ} {s : PrimCell F E Λ} (h : PrimCell.SyncOK H s) (b : Bool) :
    PrimCell.SyncOK H { s with locked := b } := ⟨h.orb, h.hop⟩

theorem new_good {H : HashFns F E Λ} {HS : SCHash F E Λ} {pc pc' : PrimCell F E Λ} {dim : List ℤ} {pbc : List Bool}
    {vacancies : Option (List (List ℤ))} {posMod : List (Vec3 F) → List (Vec3 F)} {s : SCell F E Λ}
    (hpc : PrimCell.SyncOK H pc) (h : new H HS pc dim pbc vacancies posMod = (pc', .ok s))
    (V : Set (List IdPc)) (hV : [] ∈ V) : Good H HS V pc s ∧ s.modi = IntraHop.empty ∧ s.posMod = posMod ∧
      s.pc = pc' ∧ s.pc.numOrb ≠ 0 ∧ s.locked = false := by
  unfold new at h
  simp only at h
  cases hv : verifyPc ({ pc with locked := true } : PrimCell F E Λ) with
  | error e => rw [hv] at h; simp at h
  | ok u =>
    rw [hv] at h
    simp only at h
    cases hd : checkLen 1 dim with
    | none => rw [hd] at h; simp at h
    | some d =>
      rw [hd] at h
      simp only at h
      set pc2 := PrimCell.syncHop H ({ pc with locked := true } : PrimCell F E Λ) false with hpc2
      cases hc : checkDim pc2.arrInd d with
      | error e => rw [hc] at h; simp at h
      | ok dm =>
        rw [hc] at h
        simp only at h
        cases hp : checkLen false pbc with
        | none => rw [hp] at h; simp at h
        | some p =>
          rw [hp] at h
          simp only at h
          have hok1 : PrimCell.SyncOK H ({ pc with locked := true } : PrimCell F E Λ) := syncOK_lock hpc true
          have hrest := PrimCell.syncHop_rest H ({ pc with locked := true } : PrimCell F E Λ) false
          have hfr := (PrimCell.syncHop_fresh hok1 false).1
          obtain ⟨dpos, -, -, -, dbig⟩ := checkDim_ok hc
          have hn0 : pc2.numOrb ≠ 0 := by
            intro h0
            unfold PrimCell.numOrb at h0
            rw [hpc2, hrest.2.2.2.1] at h0
            simp only at h0
            unfold verifyPc at hv
            simp only [PrimCell.numOrb, h0] at hv
            simp at hv
          have hg : ∀ vacs, LegalVacs dm pc2.numOrb vacs → Good H HS V pc
              { locked := false, pc := pc2, dim := dm, pbc := p, vacs := vacs, hashPc := HS.pc pc2,
                hashVac := HS.vac [], vacSc := [], orbId := buildOrbIdPc dm pc2.numOrb [],
                modi := IntraHop.empty, posMod := posMod } := by
            intro vacs hvl
            refine ⟨hrest.1, PrimCell.syncOK_syncHop hok1 false, ?_, dpos, hvl, ?_, IntraHop.Inv_empty, [], hV, rfl, rfl, rfl⟩
            · exact PrimCell.SameContent.trans (b := { pc with locked := true }) ⟨rfl, rfl, rfl, rfl⟩
                (PrimCell.same_syncHop H _ false)
            · intro t ht
              apply dbig (t.1, t.2.1)
              rw [hpc2, hfr]
              exact List.mem_map.2 ⟨t, ht, rfl⟩
          cases vacancies with
          | none =>
            simp only [Prod.mk.injEq, Except.ok.injEq] at h
            obtain ⟨rfl, rfl⟩ := h
            exact ⟨hg [] (legalVacs_nil _ _), rfl, rfl, rfl, hn0, rfl⟩
          | some vs =>
            simp only [addVacancies] at h
            cases hr : (addVacLoop dm pc2.numOrb [] vs).2 with
            | error e => rw [hr] at h; simp at h
            | ok u =>
              rw [hr] at h
              simp only [Bool.false_eq_true, if_false, Prod.mk.injEq, Except.ok.injEq] at h
              obtain ⟨rfl, rfl⟩ := h
              exact ⟨hg _ (addVacLoop_legal vs (legalVacs_nil _ _)), rfl, rfl, rfl, hn0, rfl⟩

/-! ## Hoppings of a synchronised supercell -/

theorem zipWith_toList (l : List (Cell × Pair × E)) :
    List.zipWith (fun (a : Cell × Pair) (e : E) => (a.1, a.2, e)) (l.map (fun t => (t.1, t.2.1)))
      (l.map (fun t => t.2.2)) = l := by
  induction l with
  | nil => rfl
  | cons t l ih => simp [ih]

theorem pcHops_eq {H : HashFns F E Λ} {HS : SCHash F E Λ} {V : Set (List IdPc)} {pc0 : PrimCell F E Λ}
    {s : SCell F E Λ} (h : Good H HS V pc0 s) : s.pcHops H = pc0.hops.toList := by
  unfold pcHops
  obtain ⟨h1, h2⟩ := PrimCell.syncHop_fresh h.sync false
  simp only [h1, h2]
  rw [zipWith_toList, h.same.toList]

theorem initHop_perm {H : HashFns F E Λ} {HS : SCHash F E Λ} {V : Set (List IdPc)} {pc0 : PrimCell F E Λ}
    {s : SCell F E Λ} (h : Good H HS V pc0 s) (hf : Fresh s) (hr : HopsInRange pc0.numOrb pc0.hops.toList) :
    (s.initHop H).Perm (buildHopGen pc0.hops.toList s.dim s.pbc pc0.numOrb
      (buildOrbIdPc s.dim pc0.numOrb (vacIdSc s.dim pc0.numOrb s.vacs))
      (vacIdSc s.dim pc0.numOrb s.vacs) (scLatVec pc0.lat s.dim) (rowAt (s.orbPos H))) := by
  have hn : s.pc.numOrb = pc0.numOrb := by unfold PrimCell.numOrb; rw [h.same.orbs]
  unfold initHop
  rw [pcHops_eq h, hf.orb, hf.vac, hn, h.same.lat]
  split_ifs with h0
  · have hv : s.vacs = [] := List.length_eq_zero_iff.1 h0
    have hvn : vacIdSc s.dim pc0.numOrb s.vacs = [] := by rw [hv]; rfl
    rw [hvn]
    exact initHopFast_perm h.pos s.pbc _ _ _ hr
  · exact List.Perm.refl _

end SCell
end Verif

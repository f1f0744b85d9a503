import Verif.Spec.Sample
import Verif.Proof.SuperMod

/-! # Assembly of samples -/

namespace Verif
namespace SCell

variable {F E Λ : Type*} [Field F] [DecidableEq F] [InvolutiveStar E]

/-- A supercell on which synchronisation settles after one call. -/
structure Steady (s : SCell F E Λ) : Prop where
  locked : s.pc.locked = true
  legal : LegalVacs s.dim s.pc.numOrb s.vacs

theorem sync_cases {HS : SCHash F E Λ} {s : SCell F E Λ} (h : Steady s) :
    (verifyPc s.pc ≠ .ok () ∧ syncArray HS s false = (s, verifyPc s.pc)) ∨
    (verifyPc s.pc = .ok () ∧ (syncArray HS s false).2 = .ok () ∧
      (syncArray HS s false).1.hashPc = HS.pc s.pc ∧ (syncArray HS s false).1.hashVac = HS.vac s.vacs ∧
      (syncArray HS s false).1.pc = s.pc ∧ (syncArray HS s false).1.vacs = s.vacs ∧
      (syncArray HS s false).1.dim = s.dim) := by
  unfold syncArray
  cases hv : verifyPc s.pc with
  | error e => left; simp
  | ok u =>
    right
    simp only
    have hall : s.vacs.all (fun q =>
        (checkIdPc s.dim s.pc.numOrb [q.1, q.2.1, q.2.2.1, q.2.2.2]).toOption.isSome) = true := by
      rw [List.all_eq_true]
      intro q hq
      exact (checkIdPc_isSome _ _ q).2 (h.legal.legal q hq)
    have hlk : ({ s.pc with locked := true } : PrimCell F E Λ) = s.pc := by
      have := h.locked
      cases hpc : s.pc; rw [hpc] at this; simp only at this; rw [this]
    by_cases hc : s.hashPc ≠ HS.pc s.pc ∨ s.hashVac ≠ HS.vac s.vacs
    · rw [if_pos (Or.inr hc), if_neg (by rw [hall]; simp)]
      simp only [hlk]
      simp
    · rw [if_neg (by simpa using hc)]
      simp

theorem sync_idem {HS : SCHash F E Λ} {s : SCell F E Λ} (h : Steady s) :
    syncArray HS (syncArray HS s false).1 false = ((syncArray HS s false).1, (syncArray HS s false).2) := by
  rcases sync_cases (HS := HS) h with ⟨h1, h2⟩ | ⟨h1, h2, h3, h4, h5, h6, h7⟩
  · rw [h2]; simp only; rw [h2]
  · rw [h2]
    generalize (syncArray HS s false).1 = s' at *
    unfold syncArray
    rw [h5, h1]
    simp only
    rw [if_neg (by rw [h3, h4, h6]; simp)]
    cases s'
    simp only at *
    subst h3 h4 h5 h6
    rfl

theorem Steady.sync {HS : SCHash F E Λ} {s : SCell F E Λ} (h : Steady s) : Steady (syncArray HS s false).1 := by
  rcases sync_cases (HS := HS) h with ⟨h1, h2⟩ | ⟨h1, h2, h3, h4, h5, h6, h7⟩
  · rw [h2]; exact h
  · exact ⟨h5 ▸ h.locked, by rw [h5, h6, h7]; exact h.legal⟩

theorem Good.steady {H : HashFns F E Λ} {HS : SCHash F E Λ} {V : Set (List IdPc)} {pc0 : PrimCell F E Λ}
    {s : SCell F E Λ} (h : Good H HS V pc0 s) : Steady s := ⟨h.locked, h.legal⟩

/-- The common shape of the getters. -/
def viaSync {α : Type*} (HS : SCHash F E Λ) (g : SCell F E Λ → Except SCErr α) (s : SCell F E Λ) :
    SCell F E Λ × Except SCErr α :=
  match syncArray HS s false with
  | (s', .error e) => (s', .error e)
  | (s', .ok ()) => (s', g s')

theorem viaSync_fst {α : Type*} (HS : SCHash F E Λ) (g : SCell F E Λ → Except SCErr α) (s : SCell F E Λ) :
    (viaSync HS g s).1 = (syncArray HS s false).1 := by
  unfold viaSync; split <;> simp_all

theorem viaSync_idem {α : Type*} {HS : SCHash F E Λ} (g : SCell F E Λ → Except SCErr α) {s : SCell F E Λ}
    (h : Steady s) :
    viaSync HS g (syncArray HS s false).1 = ((syncArray HS s false).1, (viaSync HS g s).2) := by
  have h1 : viaSync HS g (syncArray HS s false).1 =
      ((viaSync HS g (syncArray HS s false).1).1, (viaSync HS g (syncArray HS s false).1).2) := rfl
  rw [h1, viaSync_fst, sync_idem h]
  congr 1
  unfold viaSync
  rw [sync_idem h]

theorem getOrbEng_via (H : HashFns F E Λ) (HS : SCHash F E Λ) :
    getOrbEng H HS = viaSync HS (fun s' => .ok (buildOrbEng (fun i => (PrimCell.syncOrb H s'.pc false).arrEng.getD i.toNat 0) s'.orbId)) := rfl
theorem getOrbPos_via (H : HashFns F E Λ) (HS : SCHash F E Λ) :
    getOrbPos H HS = viaSync HS (fun s' => .ok (s'.orbPos H)) := rfl
theorem getHop_via (H : HashFns F E Λ) (HS : SCHash F E Λ) :
    getHop H HS = viaSync HS (getHopSynced H) := rfl

end SCell

open SCell

variable {F E Λ : Type*} [Field F] [DecidableEq F] [InvolutiveStar E]

/-- The second heap is the first with some supercells synchronised. -/
def SyncedHeap (HS : SCHash F E Λ) (hp hp' : SCHeap F E Λ) : Prop :=
  ∀ id, hp' id = hp id ∨ hp' id = (syncArray HS (hp id) false).1

theorem SyncedHeap.refl (HS : SCHash F E Λ) (hp : SCHeap F E Λ) : SyncedHeap HS hp hp := fun _ => Or.inl rfl

theorem SyncedHeap.val {α : Type*} {HS : SCHash F E Λ} {hp hp' : SCHeap F E Λ} (h : SyncedHeap HS hp hp')
    {id : ℕ} (hs : Steady (hp id)) (g : SCell F E Λ → Except SCErr α) :
    (viaSync HS g (hp' id)).2 = (viaSync HS g (hp id)).2 ∧
    (viaSync HS g (hp' id)).1 = (syncArray HS (hp id) false).1 := by
  rcases h id with e | e
  · rw [e]; exact ⟨rfl, viaSync_fst ..⟩
  · rw [e, viaSync_idem g hs]; exact ⟨rfl, rfl⟩

theorem SyncedHeap.set {HS : SCHash F E Λ} {hp hp' : SCHeap F E Λ} (h : SyncedHeap HS hp hp') (id : ℕ) :
    SyncedHeap HS hp (heapSet hp' id (syncArray HS (hp id) false).1) := by
  intro k
  unfold heapSet
  split_ifs with hk
  · subst hk; exact Or.inr rfl
  · exact h k

theorem collect_ok {α : Type*} {HS : SCHash F E Λ} (g : SCell F E Λ → Except SCErr α) {hp : SCHeap F E Λ} :
    ∀ (ids : List ℕ) {hp' hp'' : SCHeap F E Λ} {l : List α}, SyncedHeap HS hp hp' →
    (∀ id ∈ ids, Steady (hp id)) → collect (viaSync HS g) hp' ids = (hp'', .ok l) →
    SyncedHeap HS hp hp'' ∧ List.Forall₂ (fun id a => (viaSync HS g (hp id)).2 = .ok a) ids l
  | [], hp', hp'', l, hs, _, h => by
    simp only [collect, Prod.mk.injEq, Except.ok.injEq] at h
    obtain ⟨rfl, rfl⟩ := h
    exact ⟨hs, List.Forall₂.nil⟩
  | id :: ids, hp', hp'', l, hs, hst, h => by
    have hv := hs.val (hst id (by simp)) g
    rcases hx : viaSync HS g (hp' id) with ⟨s', r⟩
    rw [hx] at hv
    simp only at hv
    rw [collect, hx] at h
    cases r with
    | error e => simp at h
    | ok a =>
      simp only at h
      rcases hc : collect (viaSync HS g) (heapSet hp' id s') ids with ⟨hp3, r3⟩
      rw [hc] at h
      cases r3 with
      | error e => simp at h
      | ok as =>
        simp only [Prod.mk.injEq, Except.ok.injEq] at h
        obtain ⟨rfl, rfl⟩ := h
        rw [hv.2] at hc
        obtain ⟨h1, h2⟩ := collect_ok g ids (hs.set id) (fun k hk => hst k (by simp [hk])) hc
        exact ⟨h1, List.Forall₂.cons hv.1.symm h2⟩

theorem interGetHop_ok {H : HashFns F E Λ} {HS : SCHash F E Λ} {hp hp' hp'' : SCHeap F E Λ} {h : InterSC E}
    {l : List (SCHop F E)} (hs : SyncedHeap HS hp hp') (hb : Steady (hp h.bra)) (hk : Steady (hp h.ket))
    (he : interGetHop H HS hp' h = (hp'', .ok l)) :
    SyncedHeap HS hp hp'' ∧ ∃ pb pk, (getOrbPos H HS (hp h.bra)).2 = .ok pb ∧
      (getOrbPos H HS (hp h.ket)).2 = .ok pk ∧
      l = h.hop.toList.map fun t =>
        ⟨t.2.1.1, t.2.1.2, t.2.2, interDr (scLatVec (hp h.ket).pc.lat (hp h.ket).dim) (rowAt pb) (rowAt pk) t⟩ := by
  unfold interGetHop at he
  split_ifs at he with h0
  · simp at he
  have hv := hs.val hb (fun s' => (.ok (s'.orbPos H) : Except SCErr _))
  rw [← getOrbPos_via] at hv
  rcases hx : getOrbPos H HS (hp' h.bra) with ⟨s1, r1⟩
  rw [hx] at hv he
  cases r1 with
  | error e => simp at he
  | ok pb =>
    simp only at hv he
    have hs1 := hs.set h.bra
    rw [← hv.2] at hs1
    have hv2 := hs1.val hk (fun s' => (.ok (s'.orbPos H) : Except SCErr _))
    rw [← getOrbPos_via] at hv2
    rcases hy : getOrbPos H HS (heapSet hp' h.bra s1 h.ket) with ⟨s2, r2⟩
    rw [hy] at hv2 he
    cases r2 with
    | error e => simp at he
    | ok pk =>
      simp only at hv2 he
      have hs2 := hs1.set h.ket
      rw [← hv2.2] at hs2
      simp only [Prod.mk.injEq, Except.ok.injEq] at he
      obtain ⟨rfl, rfl⟩ := he
      refine ⟨hs2, pb, pk, hv.1.symm, hv2.1.symm, ?_⟩
      have hpd : s2.pc = (hp h.ket).pc ∧ s2.dim = (hp h.ket).dim := by
        rw [hv2.2]
        rcases sync_cases (HS := HS) hk with ⟨-, h2⟩ | ⟨-, -, -, -, h5, -, h7⟩
        · rw [h2]; exact ⟨rfl, rfl⟩
        · exact ⟨h5, h7⟩
      rw [hpd.1, hpd.2]

theorem collectInter_ok {H : HashFns F E Λ} {HS : SCHash F E Λ} {hp : SCHeap F E Λ} :
    ∀ (hs : List (InterSC E)) {hp' hp'' : SCHeap F E Λ} {l : List (List (SCHop F E))}, SyncedHeap HS hp hp' →
    (∀ h ∈ hs, Steady (hp h.bra) ∧ Steady (hp h.ket)) → collectInter H HS hp' hs = (hp'', .ok l) →
    SyncedHeap HS hp hp'' ∧ List.Forall₂ (fun h a => ∃ pb pk, (getOrbPos H HS (hp h.bra)).2 = .ok pb ∧
      (getOrbPos H HS (hp h.ket)).2 = .ok pk ∧
      a = h.hop.toList.map fun t => (⟨t.2.1.1, t.2.1.2, t.2.2,
        interDr (scLatVec (hp h.ket).pc.lat (hp h.ket).dim) (rowAt pb) (rowAt pk) t⟩ : SCHop F E)) hs l
  | [], hp', hp'', l, hs, _, h => by
    simp only [collectInter, Prod.mk.injEq, Except.ok.injEq] at h
    obtain ⟨rfl, rfl⟩ := h
    exact ⟨hs, List.Forall₂.nil⟩
  | x :: xs, hp', hp'', l, hs, hst, h => by
    rw [collectInter] at h
    rcases hx : interGetHop H HS hp' x with ⟨hp1, r⟩
    rw [hx] at h
    cases r with
    | error e => simp at h
    | ok a =>
      obtain ⟨h1, h2⟩ := interGetHop_ok hs (hst x (by simp)).1 (hst x (by simp)).2 hx
      simp only at h
      rcases hc : collectInter H HS hp1 xs with ⟨hp3, r3⟩
      rw [hc] at h
      cases r3 with
      | error e => simp at h
      | ok as =>
        simp only [Prod.mk.injEq, Except.ok.injEq] at h
        obtain ⟨rfl, rfl⟩ := h
        obtain ⟨h3, h4⟩ := collectInter_ok xs h1 (fun k hk => hst k (by simp [hk])) hc
        exact ⟨h3, List.Forall₂.cons h2 h4⟩

/-! ## Ranges of indices -/

namespace SCell

/-- Modifier terms have nonnegative orbital indices. -/
def ModNonneg (m : IntraHop E) : Prop := ∀ R (p : Pair) e, IntraHop.look m R p = some e → 0 ≤ p.1 ∧ 0 ≤ p.2

theorem modNonneg_add {m : IntraHop E} (h : ModNonneg m) (R : Cell) {i j : ℤ} (hi : 0 ≤ i) (hj : 0 ≤ j) (e : E) :
    ModNonneg (m.add R i j e) := by
  intro R' p e' hl
  rw [IntraHop.look_add] at hl
  split_ifs at hl with h1 h2
  · unfold IntraHop.nkey at h1
    rw [h2] at h1; simp at h1; rw [h1.2]; exact ⟨hj, hi⟩
  · unfold IntraHop.nkey at h1
    simp only [h2] at h1; simp at h1; rw [h1.2]; exact ⟨hi, hj⟩
  · exact h _ _ _ hl

theorem modNonneg_remove {m : IntraHop E} (hm : IntraHop.Inv m) (h : ModNonneg m) {L : List ℤ} (hL : ∀ x ∈ L, 0 ≤ x) :
    ModNonneg (m.removeOrbitals L) := by
  intro R q e hl
  obtain ⟨i, j, -, -, rfl, h2⟩ := (IntraHop.look_removeOrbitals hm L R q e).1 hl
  have := h _ _ _ h2
  exact ⟨HopMap.rank_nonneg hL this.1, HopMap.rank_nonneg hL this.2⟩

theorem addVac_modi (s : SCell F E Λ) (vs : List (List ℤ)) : (addVacancies s vs).1.modi = s.modi := by
  unfold addVacancies; split_ifs <;> rfl

theorem trim_modNonneg {H : HashFns F E Λ} {HS : SCHash F E Λ} {V : Set (List IdPc)} {pc0 : PrimCell F E Λ}
    {s : SCell F E Λ} (hV : VacHashOK HS V) (h : Good H HS V pc0 s) (hs : s.vacs ∈ V) (hm : ModNonneg s.modi) :
    ModNonneg (trim H HS s).1.modi := by
  by_cases hl : s.locked = true
  · unfold trim; rw [if_pos hl]; exact hm
  · have hsy := (good_sync hV h hs false).2.2.1
    rcases hg : getHop H HS s with ⟨s1, r⟩
    have h1 : s1.modi = s.modi := by
      have := getHop_state H HS s
      rw [hg] at this; simp only at this; rw [this, hsy]
    cases r with
    | error e => unfold trim; rw [if_neg hl, hg]; simp only; rw [h1]; exact hm
    | ok out =>
      by_cases hf : out.idxFloat = true
      · unfold trim; rw [if_neg hl, hg]; simp only; rw [if_pos hf]; simp only; rw [h1]; exact hm
      · obtain ⟨-, -, h3, h4, h5, h6, h7, h8⟩ := trim_spec hV h hs (by simpa using hl) hg (by simpa using hf)
        rw [h3]
        refine modNonneg_remove h.minv hm ?_
        intro x hx
        rw [List.mem_map] at hx
        obtain ⟨q, hq, rfl⟩ := hx
        obtain ⟨k, hk, -⟩ := (mem_getOrbIdTrim _ _ _).1 hq
        have := List.mem_of_getElem? hk
        rw [h4.orb, h4.vac] at this
        have hq' := (mem_buildOrbIdPc h5.legal q).1 this
        rw [h4.vac, ← h7, ← h8]
        exact (buildOrbIdPc_get h5.legal hq'.1 hq'.2).1

theorem step_modNonneg {H : HashFns F E Λ} {HS : SCHash F E Λ} {V : Set (List IdPc)} {pc0 : PrimCell F E Λ}
    {s : SCell F E Λ} (hV : VacHashOK HS V) (h : Good H HS V pc0 s) (hs : s.vacs ∈ V) (hm : ModNonneg s.modi)
    (op : Op F E Λ) : ModNonneg (step H HS s op).1.modi := by
  cases op with
  | addVacancies vs => unfold step; simp only; rw [addVac_modi]; exact hm
  | setVacancies vs =>
    unfold step setVacancies; simp only
    split_ifs
    · exact hm
    · cases vs with
      | none => exact hm
      | some vs => simp only; rw [addVac_modi]; exact hm
  | sync f => unfold step; simp only; rw [(good_sync hV h hs f).2.2.1]; exact hm
  | addHopping rn i j e =>
    unfold step addHopping
    cases hl : checkLen 0 rn with
    | none => simp only [hl]; split_ifs <;> exact hm
    | some R =>
      simp only [hl]
      by_cases h1 : s.locked = true
      · rw [if_pos h1]; exact hm
      rw [if_neg h1]
      by_cases h2 : 0 ≤ i ∧ i < s.numOrbSc
      · rw [if_neg (not_not.2 h2)]
        by_cases h3 : 0 ≤ j ∧ j < s.numOrbSc
        · rw [if_neg (not_not.2 h3)]
          split_ifs
          · exact hm
          · exact modNonneg_add hm R h2.1 h3.1 e
        · rw [if_pos h3]; exact hm
      · rw [if_pos h2]; exact hm
  | setPosMod f => unfold step; simp only; split_ifs <;> exact hm
  | trim => exact trim_modNonneg hV h hs hm
  | lock => exact hm
  | unlock => exact hm
  | pcCall c => exact hm
  | pcUnlock => exact hm

theorem run_modNonneg {H : HashFns F E Λ} {HS : SCHash F E Λ} {V : Set (List IdPc)} {pc0 : PrimCell F E Λ}
    {s : SCell F E Λ} (hV : VacHashOK HS V) (h : Good H HS V pc0 s) (hm : ModNonneg s.modi) (ops : List (Op F E Λ))
    (hn : NoUnlock ops) (hvis : ∀ pre, pre <+: ops → (run H HS s pre).vacs ∈ V) :
    ModNonneg (run H HS s ops).modi := by
  induction ops using List.reverseRecOn with
  | nil => exact hm
  | append_singleton ops op ih =>
    rw [run_snoc]
    have hn' : NoUnlock ops := fun o ho => hn o (by simp [ho])
    have hv' : ∀ pre, pre <+: ops → (run H HS s pre).vacs ∈ V :=
      fun pre hp => hvis pre (hp.trans (List.prefix_append _ _))
    exact step_modNonneg hV (good_run hV h ops hn' hv') (hv' ops (List.prefix_refl _)) (ih hn' hv') op

theorem new_modi {H : HashFns F E Λ} {HS : SCHash F E Λ} {pc pc' : PrimCell F E Λ} {dim : List ℤ} {pbc : List Bool}
    {vac : Option (List (List ℤ))} {pm : List (Vec3 F) → List (Vec3 F)} {s : SCell F E Λ}
    (h : new H HS pc dim pbc vac pm = (pc', .ok s)) : s.modi = IntraHop.empty := by
  unfold new at h
  simp only at h
  split at h
  · simp at h
  · split at h
    · simp at h
    · split at h
      · simp at h
      · split at h
        · simp at h
        · split at h
          · simp only [Prod.mk.injEq, Except.ok.injEq] at h; rw [← h.2]
          · split at h
            · simp at h
            · rename_i hx
              simp only [Prod.mk.injEq, Except.ok.injEq] at h
              have := congrArg (fun r => r.1.modi) hx
              simp only [addVac_modi] at this
              rw [← h.2, ← this]

theorem Reach.modNonneg {H : HashFns F E Λ} {HS : SCHash F E Λ} {pc0 : PrimCell F E Λ} {s : SCell F E Λ}
    (hp : PrimCell.Reach H pc0) (h : Reach H HS pc0 s) : ModNonneg s.modi := by
  obtain ⟨dim, pbc, vac, pm, pc', s0, ops, hnew, hn, hV, rfl⟩ := h
  refine run_modNonneg hV (new_good hp.good.2 hnew _ (Or.inl rfl)).1 ?_ ops hn
    (fun pre hpre => Or.inr ⟨pre, hpre, rfl⟩)
  rw [new_modi hnew]
  intro R p e hl
  simp [IntraHop.look, IntraHop.empty, PyDict.get?] at hl

theorem mem_modify {α : Type*} (f : α → α) : ∀ (l : List α) (k : ℕ) (x : α), x ∈ l.modify k f →
    ∃ y ∈ l, x = y ∨ x = f y
  | [], k, x, h => by simp at h
  | a :: l, 0, x, h => by
    rw [List.modify_zero_cons] at h
    rcases List.mem_cons.1 h with rfl | h
    · exact ⟨a, by simp, Or.inr rfl⟩
    · exact ⟨x, by simp [h], Or.inl rfl⟩
  | a :: l, k + 1, x, h => by
    rw [List.modify_succ_cons] at h
    rcases List.mem_cons.1 h with rfl | h
    · exact ⟨x, by simp, Or.inl rfl⟩
    · obtain ⟨y, hy, hx⟩ := mem_modify f l k x h
      exact ⟨y, by simp [hy], hx⟩

theorem modFold_range (P : ℤ → Prop) (L : Mat3 F) (pos : ℤ → Vec3 F) (m : List (Cell × Pair × E))
    (hm : ∀ t ∈ m, P t.2.1.1 ∧ P t.2.1.2) : ∀ (st : List (SCHop F E) × List (SCHop F E)),
    (∀ x ∈ st.1, P x.i ∧ P x.j) → (∀ x ∈ st.2, P x.i ∧ P x.j) →
    (∀ x ∈ (m.foldl (modStep L pos) st).1, P x.i ∧ P x.j) ∧ (∀ x ∈ (m.foldl (modStep L pos) st).2, P x.i ∧ P x.j) := by
  induction m with
  | nil => intro st h1 h2; exact ⟨h1, h2⟩
  | cons t m ih =>
    intro st h1 h2
    rw [List.foldl_cons]
    refine ih (fun u hu => hm u (by simp [hu])) _ ?_ ?_
    · intro x hx
      unfold modStep at hx
      simp only at hx
      split at hx
      · obtain ⟨y, hy, hxy | hxy⟩ := mem_modify _ _ _ _ hx <;> rw [hxy] <;> exact h1 y hy
      · obtain ⟨y, hy, hxy | hxy⟩ := mem_modify _ _ _ _ hx <;> rw [hxy] <;> exact h1 y hy
      · exact h1 x hx
    · intro x hx
      unfold modStep at hx
      simp only at hx
      split at hx
      · exact h2 x hx
      · exact h2 x hx
      · rw [List.mem_append, List.mem_singleton] at hx
        rcases hx with hx | rfl
        · exact h2 x hx
        · exact hm t (by simp)

theorem siteAt_some {sites : List IdPc} {i : ℤ} {q : IdPc} (h : siteAt sites i = some q) :
    0 ≤ i ∧ i < sites.length := by
  unfold siteAt at h
  split_ifs at h with h0
  obtain ⟨h1, -⟩ := List.getElem?_eq_some_iff.1 h
  exact ⟨h0, by omega⟩

theorem buildOrbPos_length (lat : Mat3 F) (o : Vec3 F) (p : ℤ → Vec3 F) (l : List IdPc) :
    (buildOrbPos lat o p l).length = l.length := by
  unfold buildOrbPos; simp

theorem orbId_length {H : HashFns F E Λ} {HS : SCHash F E Λ} {V : Set (List IdPc)} {pc0 : PrimCell F E Λ}
    {s : SCell F E Λ} (h : Good H HS V pc0 s) (hf : Fresh s) : (s.orbId.length : ℤ) = s.numOrbSc := by
  have := length_buildOrbIdPc h.legal
  rw [← hf.vac, ← hf.orb] at this
  unfold numOrbSc
  rw [mul_comm]
  omega

theorem getHop_range {H : HashFns F E Λ} {HS : SCHash F E Λ} {V : Set (List IdPc)} {pc0 : PrimCell F E Λ}
    {s s1 : SCell F E Λ} {out : HopOut F E} (hw : PrimCell.WF pc0) (hV : VacHashOK HS V) (h : Good H HS V pc0 s)
    (hs : s.vacs ∈ V) (hm : ModNonneg s.modi) (hpm : ∀ l, (s.posMod l).length = l.length)
    (hg : getHop H HS s = (s1, .ok out)) (x : SCHop F E) (hx : x ∈ out.terms) :
    (0 ≤ x.i ∧ x.i < s.numOrbSc) ∧ (0 ≤ x.j ∧ x.j < s.numOrbSc) := by
  obtain ⟨hs1, hfr, hout⟩ := getHop_ok hV h hs hg
  obtain ⟨g1, g2, g3, g4, g5, g6, g7, g8, -⟩ := good_sync hV h hs false
  rw [← hs1] at g1 g2 g3 g4 g5 g6 g7 g8
  have hnum : s1.numOrbSc = s.numOrbSc := by unfold numOrbSc; rw [g8, g4, g2]
  have hlen := orbId_length g1 hfr
  rw [hnum] at hlen
  have hn : s1.pc.numOrb = pc0.numOrb := by unfold PrimCell.numOrb; rw [g1.same.orbs]
  have hr := (PrimCell.WF_reduced hw).2
  have hl : LegalVacs s1.dim pc0.numOrb s1.vacs := hn ▸ g1.legal
  let P : ℤ → Prop := fun i => 0 ≤ i ∧ i < s.numOrbSc
  have hbase : ∀ y ∈ initHop H s1, P y.i ∧ P y.j := by
    intro y hy
    have hy' := (initHop_perm g1 hfr hr).mem_iff.1 hy
    have hmap := buildHopGen_map g1.pos hl s1.pbc (scLatVec pc0.lat s1.dim) (rowAt (s1.orbPos H)) _ hr
      (fun h => (siteAt (buildOrbIdPc s1.dim pc0.numOrb (vacIdSc s1.dim pc0.numOrb s1.vacs)) h.i,
        siteAt (buildOrbIdPc s1.dim pc0.numOrb (vacIdSc s1.dim pc0.numOrb s1.vacs)) h.j))
      (fun q k _ => (some q, some k)) (by
        intro io q k t ht hio hq hk hkv
        simp only
        rw [siteAt_ket hl (ketImage_legal g1.pos (hr t ht).2 hk) hkv]
        simp [siteAt, hio])
    have := List.mem_map_of_mem (f := (fun h : SCHop F E => (siteAt (buildOrbIdPc s1.dim pc0.numOrb (vacIdSc s1.dim pc0.numOrb s1.vacs)) h.i,
        siteAt (buildOrbIdPc s1.dim pc0.numOrb (vacIdSc s1.dim pc0.numOrb s1.vacs)) h.j))) hy'
    rw [hmap] at this
    simp only [List.mem_flatMap, List.mem_filterMap] at this
    obtain ⟨q, -, t, -, ht⟩ := this
    have htab : buildOrbIdPc s1.dim pc0.numOrb (vacIdSc s1.dim pc0.numOrb s1.vacs) = s1.orbId := by
      rw [hfr.orb, hfr.vac, hn]
    rw [htab] at ht
    split_ifs at ht
    split at ht
    · simp at ht
    · split_ifs at ht
      simp only [Option.some.injEq, Prod.mk.injEq] at ht
      have a := siteAt_some ht.1.symm
      have b := siteAt_some ht.2.symm
      rw [hlen] at a b
      exact ⟨a, b⟩
  unfold getHopSynced at hout
  split_ifs at hout with hn0 hall
  · simp only [Except.ok.injEq] at hout
    rw [← hout] at hx
    simp only [List.mem_append] at hx
    have hposlen : ((s1.orbPos H).length : ℤ) = s.numOrbSc := by
      unfold orbPos; rw [g6, hpm, buildOrbPos_length]; exact hlen
    have hmP : ∀ t ∈ s1.modi.toList, P t.2.1.1 ∧ P t.2.1.2 := by
      intro t ht
      rw [List.all_eq_true] at hall
      have h1 := hall t ht
      simp only [decide_eq_true_eq] at h1
      have h2 := hm _ _ _ ((IntraHop.mem_toList h.minv t.1 t.2.1 t.2.2).1 (by rw [← g3]; exact ht))
      have key : ∀ i : ℤ, 0 ≤ i → (pyIndex (s1.orbPos H).length i).isSome → P i := by
        intro i hi hp
        refine ⟨hi, ?_⟩
        rw [← hposlen]
        unfold pyIndex at hp
        split_ifs at hp <;> simp at hp <;> omega
      exact ⟨key _ h2.1 h1.1, key _ h2.2 h1.2⟩
    have := modFold_range P (scLatVec s1.pc.lat s1.dim) (rowAt (s1.orbPos H)) s1.modi.toList hmP
      (initHop H s1, []) hbase (by simp)
    rcases hx with hx | hx
    · exact this.1 x hx
    · exact this.2 x hx
  · simp only [Except.ok.injEq] at hout
    rw [← hout] at hx
    exact hbase x hx

end SCell

open SCell

theorem ReachCell.steady {H : HashFns F E Λ} {HS : SCHash F E Λ} {s : SCell F E Λ} (h : ReachCell H HS s) :
    Steady s := by
  obtain ⟨⟨pc0, hp, hr⟩, -⟩ := h
  obtain ⟨V, -, -, hg⟩ := SCell.Reach.good hp hr
  exact hg.steady

theorem ReachCell.getHop_range {H : HashFns F E Λ} {HS : SCHash F E Λ} {s : SCell F E Λ} (h : ReachCell H HS s)
    {out : HopOut F E} (hg : (getHop H HS s).2 = .ok out) {x : SCHop F E} (hx : x ∈ out.terms) :
    (0 ≤ x.i ∧ x.i < s.numOrbSc) ∧ (0 ≤ x.j ∧ x.j < s.numOrbSc) := by
  obtain ⟨⟨pc0, hp, hr⟩, hpm⟩ := h
  obtain ⟨V, hV, hs, hG⟩ := SCell.Reach.good hp hr
  exact SCell.getHop_range (s1 := (getHop H HS s).1) hp.good.1 hV hG hs (hr.modNonneg hp) hpm
    (by rw [← hg]) x hx

theorem ReachCell.lengths {H : HashFns F E Λ} {HS : SCHash F E Λ} {s : SCell F E Λ} (h : ReachCell H HS s) :
    (∀ l, (getOrbEng H HS s).2 = .ok l → (l.length : ℤ) = s.numOrbSc) ∧
    (∀ l, (getOrbPos H HS s).2 = .ok l → (l.length : ℤ) = s.numOrbSc) ∧ 0 ≤ s.numOrbSc := by
  obtain ⟨⟨pc0, hp, hr⟩, hpm⟩ := h
  obtain ⟨V, hV, hs, hG⟩ := SCell.Reach.good hp hr
  obtain ⟨g1, g2, g3, g4, g5, g6, g7, g8, g9⟩ := good_sync hV hG hs false
  have hnum : (syncArray HS s false).1.numOrbSc = s.numOrbSc := by unfold numOrbSc; rw [g8, g4, g2]
  refine ⟨?_, ?_, ?_⟩
  · intro l hl
    unfold getOrbEng at hl
    rcases hsy : syncArray HS s false with ⟨s', e | u⟩
    · rw [hsy] at hl; simp at hl
    · rw [hsy] at hl g1 g9 hnum
      simp only [Except.ok.injEq] at hl
      rw [← hl, buildOrbEng, List.length_map, orbId_length g1 (g9 rfl), hnum]
  · intro l hl
    unfold getOrbPos at hl
    rcases hsy : syncArray HS s false with ⟨s', e | u⟩
    · rw [hsy] at hl; simp at hl
    · rw [hsy] at hl g1 g9 hnum g6
      simp only [Except.ok.injEq] at hl
      simp only at g6
      rw [← hl, orbPos, g6, hpm, buildOrbPos_length, orbId_length g1 (g9 rfl), hnum]
  · have := length_buildOrbIdPc hG.legal
    unfold numOrbSc
    rw [mul_comm]
    omega

theorem forall2_length_sum {α β : Type*} {f : α → ℤ} {R : α → List β → Prop} {as : List α} {bs : List (List β)}
    (h : List.Forall₂ R as bs) (hR : ∀ a ∈ as, ∀ b, R a b → (b.length : ℤ) = f a) :
    (bs.flatten.length : ℤ) = (as.map f).sum := by
  induction h with
  | nil => rfl
  | cons hab _ ih =>
    rw [List.flatten_cons, List.length_append, List.map_cons, List.sum_cons]
    push_cast
    rw [ih (fun a ha => hR a (by simp [ha])), hR _ (by simp) _ hab]

namespace Sample

theorem startOf_eq (hp : SCHeap F E Λ) (s : Sample F E) {k : ℕ} (hk : k < s.cells.length) :
    (s.indStart hp)[k]? = some (blockStart hp s.cells k) := by
  unfold indStart blockStart numOrbList
  rw [List.getElem?_map, List.getElem?_range (by simpa using hk)]
  simp [List.map_take]

theorem blockStart_succ (hp : SCHeap F E Λ) (cells : List ℕ) {k : ℕ} {id : ℕ} (hk : cells[k]? = some id) :
    blockStart hp cells (k + 1) = blockStart hp cells k + (hp id).numOrbSc := by
  unfold blockStart
  rw [List.take_add_one, hk]; simp

theorem blockStart_mono (hp : SCHeap F E Λ) (cells : List ℕ) (h : ∀ id ∈ cells, 0 ≤ (hp id).numOrbSc) {k m : ℕ}
    (hkm : k ≤ m) : blockStart hp cells k ≤ blockStart hp cells m := by
  induction m, hkm using Nat.le_induction with
  | base => exact le_refl _
  | succ m hm ih =>
    cases hc : cells[m]? with
    | none =>
      have : blockStart hp cells (m + 1) = blockStart hp cells m := by
        unfold blockStart; rw [List.take_add_one, hc]; simp
      omega
    | some id =>
      have := h id (List.mem_of_getElem? hc)
      rw [blockStart_succ hp cells hc]; omega

theorem blockStart_all (hp : SCHeap F E Λ) (s : Sample F E) :
    blockStart hp s.cells s.cells.length = s.numOrb hp := by
  unfold blockStart numOrb numOrbList; simp

end Sample
end Verif

import Verif.Model.OrbId
import Verif.Props.Super

/-!
# Properties of the conversion of orbital indices (C120)
-/

set_option linter.unusedSectionVars false

namespace Verif.Props

open SCell

variable {F E Λ : Type*} [Field F] [DecidableEq F] [InvolutiveStar E]

/-- Specification: an orbital that exists in the supercell, i.e. a legal position that is not a vacancy. -/
def IsOrbital (s : SCell F E Λ) (pc : PrimCell F E Λ) (q : IdPc) : Prop := LegalId s.dim pc.numOrb q ∧ q ∉ s.vacs

/-- Specification: element `i` of an index is out of range. -/
def OutOfRange (s : SCell F E Λ) (pc : PrimCell F E Λ) (q : IdPc) (i : ℕ) : Prop :=
  ∃ x m : ℤ, [q.1, q.2.1, q.2.2.1, q.2.2.2][i]? = some x ∧ [(s.dim.a : ℤ), s.dim.b, s.dim.c, pc.numOrb][i]? = some m ∧ ¬ (0 ≤ x ∧ x < m)

/-- Specification: the elements of an index fit in 32 bits. -/
def FitsInt32 (q : IdPc) : Prop := ∀ x ∈ [q.1, q.2.1, q.2.2.1, q.2.2.2], -2147483648 ≤ x ∧ x < 2147483648

/-- The result of a successful synchronisation, in one piece. -/
theorem sync_pieces {H : HashFns F E Λ} {HS : SCHash F E Λ} {pc0 : PrimCell F E Λ} {s : SCell F E Λ}
    (hp : PrimCell.Reach H pc0) (h : SCell.Reach H HS pc0 s) (f : Bool) :
    ∃ s', syncArray HS s f = (s', .ok ()) ∧ s'.dim = s.dim ∧ s'.vacs = s.vacs ∧ s'.pc.numOrb = pc0.numOrb ∧
      s'.vacSc = vacIdSc s.dim pc0.numOrb s.vacs ∧ s'.orbId = buildOrbIdPc s.dim pc0.numOrb (vacIdSc s.dim pc0.numOrb s.vacs) ∧
      LegalVacs s.dim pc0.numOrb s.vacs ∧ numOrbSc s' = numOrbSc s := by
  obtain ⟨V, hV, hs, hg⟩ := SCell.Reach.good hp h
  obtain ⟨g1, g2, -, g4, -, -, -, g8, g9⟩ := good_sync hV hg hs f
  have hn : s.pc.numOrb = pc0.numOrb := by unfold PrimCell.numOrb; rw [hg.same.orbs]
  have hv0 : verifyPc s.pc = .ok () := by
    obtain ⟨dim, pbc, vac, pm, pc', s0, ops, hnew, -⟩ := h
    unfold SCell.new at hnew
    have hnh : s.pc.hops.numHop = pc0.hops.numHop := by
      rw [← IntraHop.length_toList, ← IntraHop.length_toList, hg.same.toList]
    have : verifyPc s.pc = verifyPc { pc0 with locked := true } := by
      unfold verifyPc
      rw [hn, hnh]
      rfl
    rw [this]
    cases hv : verifyPc { pc0 with locked := true } with
    | ok u => rfl
    | error e => simp [hv] at hnew
  have hok : (syncArray HS s f).2 = .ok () := by
    have hall : s.vacs.all (fun q =>
        (checkIdPc s.dim s.pc.numOrb [q.1, q.2.1, q.2.2.1, q.2.2.2]).toOption.isSome) = true := by
      rw [List.all_eq_true]
      intro q hq
      exact (checkIdPc_isSome _ _ q).2 (hg.legal.legal q hq)
    unfold syncArray
    rw [hv0]
    simp only
    by_cases hc : f = true ∨ s.hashPc ≠ HS.pc s.pc ∨ s.hashVac ≠ HS.vac s.vacs
    · rw [if_pos hc, if_neg (by rw [hall]; simp)]
    · rw [if_neg hc]
  have hf := g9 hok
  refine ⟨(syncArray HS s f).1, Prod.ext rfl hok, g4, g2, by rw [g8, hn], ?_, ?_, hn ▸ hg.legal, ?_⟩
  · rw [hf.vac, g2, g4, g8, hn]
  · rw [hf.orb, hf.vac, g2, g4, g8, hn]
  · unfold numOrbSc; rw [g8, g4, g2]

theorem wrongDims_nil {d : Dim} {n : ℕ} {q : IdPc} : wrongDims d n q = [] ↔ LegalId d n q := by
  unfold wrongDims LegalId
  rw [List.filter_eq_nil_iff]
  simp [List.range_succ, idComp, dimExt]

theorem wrongDims_mem {s : SCell F E Λ} {pc : PrimCell F E Λ} {q : IdPc} {i : ℕ} (h : i ∈ wrongDims s.dim pc.numOrb q) :
    OutOfRange s pc q i := by
  unfold wrongDims at h
  rw [List.mem_filter, List.mem_range] at h
  obtain ⟨h1, h2⟩ := h
  unfold OutOfRange
  have h4 : i = 0 ∨ i = 1 ∨ i = 2 ∨ i = 3 := by omega
  rcases h4 with rfl | rfl | rfl | rfl <;> simp [idComp, dimExt] at h2 ⊢ <;> omega

/-- **C120 (synchronisation).** On a supercell reached by any history of calls, the synchronisation at the beginning of every conversion succeeds. -/
theorem C120_sync {H : HashFns F E Λ} {HS : SCHash F E Λ} {pc0 : PrimCell F E Λ} {s : SCell F E Λ} (hp : PrimCell.Reach H pc0)
    (h : SCell.Reach H HS pc0 s) (f : Bool) : (syncArray HS s f).2 = .ok () := by
  obtain ⟨s', hs, -⟩ := sync_pieces hp h f
  rw [hs]

theorem numOrbSc_eq {H : HashFns F E Λ} {HS : SCHash F E Λ} {pc0 : PrimCell F E Λ} {s : SCell F E Λ} (hp : PrimCell.Reach H pc0)
    (h : SCell.Reach H HS pc0 s) : numOrbSc s = (buildOrbIdPc s.dim pc0.numOrb (vacIdSc s.dim pc0.numOrb s.vacs)).length := by
  obtain ⟨s', hs, h1, h2, h3, h4, h5, h6, h7⟩ := sync_pieces hp h false
  have := (C14_objects hp h false (C120_sync hp h false)).1
  rw [hs] at this
  rw [this, ← h5]

theorem sc2pc_val {H : HashFns F E Λ} {HS : SCHash F E Λ} {pc0 : PrimCell F E Λ} {s : SCell F E Λ} (hp : PrimCell.Reach H pc0)
    (h : SCell.Reach H HS pc0 s) (k : ℤ) :
    (orbIdSc2Pc HS s k).2 =
      match (pyIndex (buildOrbIdPc s.dim pc0.numOrb (vacIdSc s.dim pc0.numOrb s.vacs)).length k).bind
          (fun k => (buildOrbIdPc s.dim pc0.numOrb (vacIdSc s.dim pc0.numOrb s.vacs))[k]?) with
      | none => .error (.scIndex k)
      | some q => .ok q := by
  obtain ⟨s', hs, h1, h2, h3, h4, h5, h6, h7⟩ := sync_pieces hp h false
  unfold orbIdSc2Pc afterSync
  rw [hs]
  simp only [h5]
  rfl

theorem sc2pc_nonneg {H : HashFns F E Λ} {HS : SCHash F E Λ} {pc0 : PrimCell F E Λ} {s : SCell F E Λ} (hp : PrimCell.Reach H pc0)
    (h : SCell.Reach H HS pc0 s) (k : ℕ) (q : IdPc) : (orbIdSc2Pc HS s k).2 = .ok q ↔
      (buildOrbIdPc s.dim pc0.numOrb (vacIdSc s.dim pc0.numOrb s.vacs))[k]? = some q := by
  rw [sc2pc_val hp h]
  generalize buildOrbIdPc s.dim pc0.numOrb (vacIdSc s.dim pc0.numOrb s.vacs) = l
  by_cases hk : k < l.length
  · have : pyIndex l.length (k : ℤ) = some k := by
      unfold pyIndex
      rw [if_pos ⟨by omega, by exact_mod_cast hk⟩]; simp
    rw [this]
    simp [hk]
  · have : pyIndex l.length (k : ℤ) = none := by
      unfold pyIndex
      rw [if_neg (by omega), if_neg (by omega)]
    rw [this]
    simp [List.getElem?_eq_none (Nat.le_of_not_lt hk)]

theorem pc2sc_val {H : HashFns F E Λ} {HS : SCHash F E Λ} {pc0 : PrimCell F E Λ} {s : SCell F E Λ} (hp : PrimCell.Reach H pc0)
    (h : SCell.Reach H HS pc0 s) (q : IdPc) :
    (orbIdPc2Sc HS s [q.1, q.2.1, q.2.2.1, q.2.2.2]).2 =
      match (wrongDims s.dim pc0.numOrb q).head? with
      | some i => .error (.pcIndex i q)
      | none => if idPc2ScAny s.dim pc0.numOrb (vacIdSc s.dim pc0.numOrb s.vacs) q = -1 then .error (.pcVac q)
          else .ok (idPc2ScAny s.dim pc0.numOrb (vacIdSc s.dim pc0.numOrb s.vacs) q) := by
  obtain ⟨s', hs, h1, h2, h3, h4, h5, h6, h7⟩ := sync_pieces hp h false
  unfold orbIdPc2Sc afterSync
  rw [hs]
  simp only [h1, h3, h4]
  rfl

/-- **C120 (inverse).** The two conversions are inverse to each other: an orbital has the index `k` exactly if `k` is the (non-negative) index of this
orbital. -/
theorem C120_inverse {H : HashFns F E Λ} {HS : SCHash F E Λ} {pc0 : PrimCell F E Λ} {s : SCell F E Λ} (hp : PrimCell.Reach H pc0)
    (h : SCell.Reach H HS pc0 s) (q : IdPc) (k : ℤ) :
    (orbIdPc2Sc HS s [q.1, q.2.1, q.2.2.1, q.2.2.2]).2 = .ok k ↔ 0 ≤ k ∧ (orbIdSc2Pc HS s k).2 = .ok q := by
  obtain ⟨s', hs, h1, h2, h3, h4, h5, hl, h7⟩ := sync_pieces hp h false
  have hinv := C14_inverse hl
  rw [pc2sc_val hp h]
  cases hw : wrongDims s.dim pc0.numOrb q with
  | cons i l =>
    have hn : ¬ LegalId s.dim pc0.numOrb q := by rw [← wrongDims_nil, hw]; simp
    simp only [List.head?_cons]
    refine ⟨fun hh => (by cases hh), ?_⟩
    rintro ⟨h0, hk⟩
    obtain ⟨m, rfl⟩ := Int.eq_ofNat_of_zero_le h0
    exact absurd ((hinv m q).1 ((sc2pc_nonneg hp h m q).1 hk)).1 hn
  | nil =>
    have hL : LegalId s.dim pc0.numOrb q := wrongDims_nil.1 hw
    simp only [List.head?_nil]
    have hv := C14_vacancy hl hL
    constructor
    · intro hh
      split_ifs at hh with hc
      have hk := (C14_bijection hl).1 ⟨hL, fun hm => hc (hv.2 hm)⟩
      simp only [Except.ok.injEq] at hh
      rw [hh] at hk
      have h0 : 0 ≤ k := hk.1
      obtain ⟨m, rfl⟩ := Int.eq_ofNat_of_zero_le h0
      exact ⟨h0, (sc2pc_nonneg hp h m q).2 ((hinv m q).2 ⟨hL, fun hm => hc (hv.2 hm), hh⟩)⟩
    · rintro ⟨h0, hk⟩
      obtain ⟨m, rfl⟩ := Int.eq_ofNat_of_zero_le h0
      obtain ⟨-, i2, i3⟩ := (hinv m q).1 ((sc2pc_nonneg hp h m q).1 hk)
      rw [i3, if_neg (by omega)]

/-- **C120 (from quadruples).** A quadruple is converted exactly if it is an orbital of the supercell; otherwise the exception tells what is wrong: an
element that is out of range, a vacancy, or a wrong length. -/
theorem C120_pc2sc {H : HashFns F E Λ} {HS : SCHash F E Λ} {pc0 : PrimCell F E Λ} {s : SCell F E Λ} (hp : PrimCell.Reach H pc0)
    (h : SCell.Reach H HS pc0 s) (q : IdPc) :
    (IsOrbital s pc0 q → ∃ k, 0 ≤ k ∧ k < numOrbSc s ∧ (orbIdPc2Sc HS s [q.1, q.2.1, q.2.2.1, q.2.2.2]).2 = .ok k) ∧
    (¬ LegalId s.dim pc0.numOrb q → ∃ i, OutOfRange s pc0 q i ∧
      (orbIdPc2Sc HS s [q.1, q.2.1, q.2.2.1, q.2.2.2]).2 = .error (.pcIndex i q)) ∧
    (q ∈ s.vacs → (orbIdPc2Sc HS s [q.1, q.2.1, q.2.2.1, q.2.2.2]).2 = .error (.pcVac q)) ∧
    (∀ v : List ℤ, v.length ≠ 4 → (orbIdPc2Sc HS s v).2 = .error .pcLen) := by
  obtain ⟨s', hs, h1, h2, h3, h4, h5, hl, h7⟩ := sync_pieces hp h false
  refine ⟨?_, ?_, ?_, ?_⟩
  · rintro ⟨hL, hm⟩
    have hv := C14_vacancy hl hL
    have hk := (C14_bijection hl).1 ⟨hL, hm⟩
    have hlen := numOrbSc_eq hp h
    have hb := length_buildOrbIdPc hl
    have hpr : s.dim.prod = s.dim.a * s.dim.b * s.dim.c := rfl
    rw [hpr] at hb
    refine ⟨_, hk.1, ?_, ?_⟩
    · have := hk.2
      omega
    · rw [pc2sc_val hp h, wrongDims_nil.2 hL]
      simp only [List.head?_nil]
      rw [if_neg (fun hh => hm (hv.1 hh))]
  · intro hn
    rw [pc2sc_val hp h]
    cases hw : wrongDims s.dim pc0.numOrb q with
    | nil => exact absurd (wrongDims_nil.1 hw) hn
    | cons i l =>
      refine ⟨i, wrongDims_mem (by rw [hw]; simp), rfl⟩
  · intro hm
    have hL := hl.legal q hm
    rw [pc2sc_val hp h, wrongDims_nil.2 hL]
    simp only [List.head?_nil]
    rw [if_pos ((C14_vacancy hl hL).2 hm)]
  · intro v hv
    unfold orbIdPc2Sc afterSync
    rw [hs]
    simp only
    split
    · simp at hv
    · rfl

/-- **C120 (to quadruples, partial).** A non-negative index below the number of orbitals is converted to an orbital of the supercell; one that is too
large is rejected.  Missing: negative indices, for which the documented exception is not raised (`C120_sc2pc_negative`). -/
theorem C120_sc2pc_partial {H : HashFns F E Λ} {HS : SCHash F E Λ} {pc0 : PrimCell F E Λ} {s : SCell F E Λ} (hp : PrimCell.Reach H pc0)
    (h : SCell.Reach H HS pc0 s) (k : ℤ) (h0 : 0 ≤ k) :
    (k < numOrbSc s → ∃ q, IsOrbital s pc0 q ∧ (orbIdSc2Pc HS s k).2 = .ok q) ∧
    (numOrbSc s ≤ k → (orbIdSc2Pc HS s k).2 = .error (.scIndex k)) := by
  obtain ⟨s', hs, h1, h2, h3, h4, h5, hl, h7⟩ := sync_pieces hp h false
  have hlen := numOrbSc_eq hp h
  obtain ⟨m, rfl⟩ := Int.eq_ofNat_of_zero_le h0
  constructor
  · intro hk
    rw [hlen] at hk
    have hk' := Int.ofNat_lt.1 hk
    have hg := List.getElem?_eq_getElem hk'
    obtain ⟨i1, i2, -⟩ := (C14_inverse hl m _).1 hg
    exact ⟨_, ⟨i1, i2⟩, (sc2pc_nonneg hp h m _).2 hg⟩
  · intro hk
    rw [hlen] at hk
    rw [sc2pc_val hp h]
    have : pyIndex (buildOrbIdPc s.dim pc0.numOrb (vacIdSc s.dim pc0.numOrb s.vacs)).length (m : ℤ) = none := by
      unfold pyIndex
      rw [if_neg (by omega), if_neg (by omega)]
    rw [this]
    rfl

/-- **C120 fails** for negative indices: down to minus the number of orbitals they are silently taken to count from the end, though they are out of
range. -/
theorem C120_sc2pc_negative {H : HashFns F E Λ} {HS : SCHash F E Λ} {pc0 : PrimCell F E Λ} {s : SCell F E Λ} (hp : PrimCell.Reach H pc0)
    (h : SCell.Reach H HS pc0 s) (k : ℤ) (h0 : k < 0) (hk : - numOrbSc s ≤ k) :
    ∃ q, (orbIdSc2Pc HS s k).2 = .ok q ∧ (orbIdSc2Pc HS s (k + numOrbSc s)).2 = .ok q := by
  obtain ⟨q, -, hq⟩ := (C120_sc2pc_partial hp h (k + numOrbSc s) (by omega)).1 (by omega)
  refine ⟨q, ?_, hq⟩
  have hlen := numOrbSc_eq hp h
  rw [sc2pc_val hp h] at hq ⊢
  rw [hlen] at hk hq
  generalize buildOrbIdPc s.dim pc0.numOrb (vacIdSc s.dim pc0.numOrb s.vacs) = l at *
  have e1 : pyIndex l.length k = some (k + l.length).toNat := by
    unfold pyIndex
    rw [if_neg (by omega), if_pos ⟨hk, h0⟩]
  have e2 : pyIndex l.length (k + l.length) = some (k + l.length).toNat := by
    unfold pyIndex
    rw [if_pos ⟨by omega, by omega⟩]
  rw [e1]
  rw [e2] at hq
  cases hb : (some (k + (l.length : ℤ)).toNat).bind (fun k => l[k]?) with
  | none => rw [hb] at hq; cases hq
  | some p => rw [hb] at hq; exact hq

theorem checkIdScArray_ok (N : ℤ) : ∀ (io : ℕ) (l : List ℤ), (∀ x ∈ l, 0 ≤ x ∧ x < N) → checkIdScArray N io l = (0, 0)
  | _, [], _ => rfl
  | io, x :: xs, h => by
    unfold checkIdScArray
    rw [if_neg (not_not.2 (h x (by simp)))]
    exact checkIdScArray_ok N (io + 1) xs (fun y hy => h y (by simp [hy]))

theorem checkIdScArray_bad (N : ℤ) (x : ℤ) (hx : ¬ (0 ≤ x ∧ x < N)) (post : List ℤ) : ∀ (io : ℕ) (pre : List ℤ), (∀ y ∈ pre, 0 ≤ y ∧ y < N) →
    checkIdScArray N io (pre ++ x :: post) = (-1, io + pre.length)
  | io, [], _ => by
    rw [List.nil_append]
    unfold checkIdScArray
    rw [if_pos hx]
    rfl
  | io, y :: ys, h => by
    rw [List.cons_append]
    unfold checkIdScArray
    rw [if_neg (not_not.2 (h y (by simp))), checkIdScArray_bad N x hx post (io + 1) ys (fun z hz => h z (by simp [hz]))]
    simp only [List.length_cons, Prod.mk.injEq, true_and]
    omega

/-- **C120 (arrays of indices).** If every index is in range the array is converted entry by entry like single indices; otherwise the exception names
the first index that is out of range (negative ones included). -/
theorem C120_sc2pc_array {H : HashFns F E Λ} {HS : SCHash F E Λ} {pc0 : PrimCell F E Λ} {s : SCell F E Λ} (hp : PrimCell.Reach H pc0)
    (h : SCell.Reach H HS pc0 s) (ids : List ℤ) :
    ((∀ k ∈ ids, 0 ≤ k ∧ k < numOrbSc s) → ∃ qs, (orbIdSc2PcArray HS s ids).2 = .ok qs ∧
      List.Forall₂ (fun k q => (orbIdSc2Pc HS s k).2 = .ok q) ids qs) ∧
    (∀ pre k post, ids = pre ++ k :: post → (∀ x ∈ pre, 0 ≤ x ∧ x < numOrbSc s) → ¬ (0 ≤ k ∧ k < numOrbSc s) →
      (orbIdSc2PcArray HS s ids).2 = .error (.scIndex k)) := by
  obtain ⟨s', hs, h1, h2, h3, h4, h5, hl, h7⟩ := sync_pieces hp h false
  unfold orbIdSc2PcArray afterSync
  rw [hs]
  simp only [h7]
  constructor
  · intro hr
    rw [checkIdScArray_ok _ _ _ hr]
    simp only [if_neg (show ¬ ((0 : ℤ) = -1) by omega)]
    refine ⟨_, rfl, ?_⟩
    rw [List.forall₂_map_right_iff, List.forall₂_same]
    intro k hk
    obtain ⟨h0, hlt⟩ := hr k hk
    obtain ⟨m, rfl⟩ := Int.eq_ofNat_of_zero_le h0
    rw [sc2pc_nonneg hp h, h5, Int.toNat_natCast]
    rw [numOrbSc_eq hp h] at hlt
    have hlt' := Int.ofNat_lt.1 hlt
    rw [List.getElem?_eq_getElem hlt']
    rfl
  · rintro pre k post rfl hpre hk
    rw [checkIdScArray_bad _ _ hk _ _ _ hpre]
    simp

theorem checkIdPcArray_ok {d : Dim} {n : ℕ} {vacs : List IdPc} (hl : LegalVacs d n vacs) : ∀ (io : ℕ) (l : List IdPc),
    (∀ q ∈ l, LegalId d n q ∧ q ∉ vacs) → checkIdPcArray d n (vacIdSc d n vacs) io l = (0, 0, 0)
  | _, [], _ => rfl
  | io, q :: qs, h => by
    obtain ⟨hL, hm⟩ := h q (by simp)
    have hv := C14_vacancy hl hL
    have ih := checkIdPcArray_ok hl (io + 1) qs (fun y hy => h y (by simp [hy]))
    unfold checkIdPcArray
    rw [wrongDims_nil.2 hL]
    simp only [List.getLast?_nil]
    split_ifs with c1 c2
    · exact ih
    · refine absurd (hv.1 ?_) hm
      unfold idPc2ScAny
      rw [if_neg c1, c2]
    · exact ih

theorem checkIdPcArray_bad {d : Dim} {n : ℕ} {vacs : List IdPc} (hl : LegalVacs d n vacs) (q : IdPc) (post : List IdPc) :
    ∀ (io : ℕ) (pre : List IdPc), (∀ q ∈ pre, LegalId d n q ∧ q ∉ vacs) →
    (¬ LegalId d n q → ∃ i, i ∈ wrongDims d n q ∧ checkIdPcArray d n (vacIdSc d n vacs) io (pre ++ q :: post) = (-2, io + pre.length, i)) ∧
    (q ∈ vacs → checkIdPcArray d n (vacIdSc d n vacs) io (pre ++ q :: post) = (-1, io + pre.length, 0))
  | io, [], _ => by
    rw [List.nil_append]
    unfold checkIdPcArray
    constructor
    · intro hn
      cases hw : wrongDims d n q with
      | nil => exact absurd (wrongDims_nil.1 hw) hn
      | cons i l =>
        have hg : (i :: l).getLast? = some ((i :: l).getLast (by simp)) := List.getLast?_eq_some_getLast (by simp)
        rw [hg]
        exact ⟨_, List.getLast_mem (by simp), rfl⟩
    · intro hm
      have hL := hl.legal q hm
      have hv := (C14_vacancy hl hL).2 hm
      rw [wrongDims_nil.2 hL]
      simp only [List.getLast?_nil]
      unfold idPc2ScAny at hv
      have h0 : (vacIdSc d n vacs).length ≠ 0 := by
        unfold vacIdSc
        rw [List.length_insertionSort, List.length_map]
        exact fun hh => by rw [List.length_eq_zero_iff.1 hh] at hm; simp at hm
      rw [if_neg h0] at hv
      rw [if_neg h0, if_pos hv]
      rfl
  | io, p :: ps, h => by
    obtain ⟨hL, hm⟩ := h p (by simp)
    have hv := C14_vacancy hl hL
    have ih := checkIdPcArray_bad hl q post (io + 1) ps (fun y hy => h y (by simp [hy]))
    have e : checkIdPcArray d n (vacIdSc d n vacs) io (p :: ps ++ q :: post) =
        checkIdPcArray d n (vacIdSc d n vacs) (io + 1) (ps ++ q :: post) := by
      rw [List.cons_append]
      conv_lhs => unfold checkIdPcArray
      rw [wrongDims_nil.2 hL]
      simp only [List.getLast?_nil]
      split_ifs with c1 c2
      · rfl
      · refine absurd (hv.1 ?_) hm
        unfold idPc2ScAny
        rw [if_neg c1, c2]
      · rfl
    rw [e, show io + (p :: ps).length = io + 1 + ps.length by simp only [List.length_cons]; omega]
    exact ih

theorem toInt32_fits {q : IdPc} (h : FitsInt32 q) : toInt32 q = q := by
  have key : ∀ x : ℤ, (-2147483648 ≤ x ∧ x < 2147483648) → i32 x = x := by
    intro x hx
    unfold i32
    rw [Int.bmod_def]
    split_ifs <;> omega
  obtain ⟨a, b, c, o⟩ := q
  unfold FitsInt32 at h
  unfold toInt32
  simp only [List.mem_cons, List.not_mem_nil, or_false, forall_eq_or_imp, forall_eq] at h
  rw [key a h.1, key b h.2.1, key c h.2.2.1, key o h.2.2.2]

/-- **C120 (arrays of quadruples, partial).** If every row is an orbital of the supercell the array is converted row by row like single quadruples;
otherwise the exception names the first row that is not, with the reason.  Missing: rows with elements that do not fit in 32 bits, for which the claim
is false (`C120_pc2sc_array_wraps`). -/
theorem C120_pc2sc_array_partial {H : HashFns F E Λ} {HS : SCHash F E Λ} {pc0 : PrimCell F E Λ} {s : SCell F E Λ} (hp : PrimCell.Reach H pc0)
    (h : SCell.Reach H HS pc0 s) (qs : List IdPc) (hf : ∀ q ∈ qs, FitsInt32 q) :
    ((∀ q ∈ qs, IsOrbital s pc0 q) → ∃ ks, (orbIdPc2ScArray HS s qs).2 = .ok ks ∧
      List.Forall₂ (fun q k => (orbIdPc2Sc HS s [q.1, q.2.1, q.2.2.1, q.2.2.2]).2 = .ok k) qs ks) ∧
    (∀ pre q post, qs = pre ++ q :: post → (∀ p ∈ pre, IsOrbital s pc0 p) →
      (¬ LegalId s.dim pc0.numOrb q → ∃ i, OutOfRange s pc0 q i ∧ (orbIdPc2ScArray HS s qs).2 = .error (.pcIndex i q)) ∧
      (q ∈ s.vacs → (orbIdPc2ScArray HS s qs).2 = .error (.pcVac q))) := by
  obtain ⟨s', hs, h1, h2, h3, h4, h5, hl, h7⟩ := sync_pieces hp h false
  have hmap : qs.map toInt32 = qs := by
    conv_rhs => rw [← List.map_id qs]
    exact List.map_congr_left (fun q hq => toInt32_fits (hf q hq))
  unfold orbIdPc2ScArray afterSync
  rw [hs]
  simp only [hmap, h1, h3, h4]
  constructor
  · intro hr
    rw [checkIdPcArray_ok hl 0 qs hr]
    simp only
    rw [if_neg (by omega), if_neg (by omega)]
    refine ⟨_, rfl, ?_⟩
    rw [List.forall₂_map_right_iff, List.forall₂_same]
    intro q hq
    obtain ⟨hL, hm⟩ := hr q hq
    rw [pc2sc_val hp h, wrongDims_nil.2 hL]
    simp only [List.head?_nil]
    rw [if_neg (fun hh => hm ((C14_vacancy hl hL).1 hh))]
  · rintro pre q post rfl hpre
    obtain ⟨b1, b2⟩ := checkIdPcArray_bad hl q post 0 pre hpre
    constructor
    · intro hn
      obtain ⟨i, hi, e⟩ := b1 hn
      rw [e]
      exact ⟨i, wrongDims_mem hi, by simp⟩
    · intro hm
      rw [b2 hm]
      simp

/-- **C120 fails** for arrays of wider integers: elements are reduced modulo `2^32` before they are checked, so that an index far out of range is
converted like the one it is congruent to. -/
theorem C120_pc2sc_array_wraps {HS : SCHash F E Λ} {s : SCell F E Λ} (q : IdPc) (m : ℤ) :
    orbIdPc2ScArray HS s [(q.1 + 4294967296 * m, q.2)] = orbIdPc2ScArray HS s [q] := by
  have : toInt32 (q.1 + 4294967296 * m, q.2) = toInt32 q := by
    unfold toInt32
    have : i32 (q.1 + 4294967296 * m) = i32 q.1 := by
      unfold i32
      rw [show (4294967296 : ℤ) * m = ((2 ^ 32 : ℕ) : ℤ) * m by norm_num, Int.add_mul_bmod_self_left]
    rw [this]
  unfold orbIdPc2ScArray
  simp only [List.map_cons, List.map_nil, this]

set_option synthInstance.maxSize 1000 in
set_option synthInstance.maxHeartbeats 400000 in
/-- A concrete case: a row of five cells of a chain without the third one; the fourth cell gets index 2, the vacancy is rejected, the index `-1` is
accepted. -/
example :
    ((scRun chain [5, 1] [true, true] none [.addVacancies [[2, 0, 0, 0]]]).map fun s =>
      ((orbIdPc2Sc scLenHash s [3, 0, 0, 0]).2.toOption, (orbIdPc2Sc scLenHash s [2, 0, 0, 0]).2.toOption,
        (orbIdPc2ScArray scLenHash s [(4294967296, 0, 0, 0)]).2.toOption)) = some (some 2, none, some [0]) ∧
    ((scRun chain [5, 1] [true, true] none [.addVacancies [[2, 0, 0, 0]]]).map fun s =>
      ((orbIdSc2Pc scLenHash s 2).2.toOption, (orbIdSc2Pc scLenHash s (-1)).2.toOption,
        (orbIdSc2Pc scLenHash s 4).2.toOption)) = some (some (3, 0, 0, 0), some (4, 0, 0, 0), none) := by
  constructor <;> decide +kernel

end Verif.Props

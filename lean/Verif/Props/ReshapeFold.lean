import Verif.Props.Reshape
import Verif.Props.Extend

/-! # Property C96: band folding of reshaped cells -/

set_option linter.unusedSectionVars false

namespace Verif.Props

open PrimCell

variable {Λ : Type*}

/-- Phase of the folded Bloch vector on new orbital `a`, the image in old cell `R`: `k·R` in convention 2, `m·τ'` in
convention 1, where `τ'` is the position of the new orbital. -/
noncomputable def reshPhase (conv : ℤ) (k : Vec3 ℝ) (m : Fin 3 → ℤ) (R : Cell) (τ' : Vec3 ℝ) : ℝ :=
  if conv = 1 then ∑ x, (m x : ℝ) * τ' x else ∑ x, k x * cellAt R x

theorem resh_key {Lz : Matrix (Fin 3) (Fin 3) ℤ} {conv : ℤ} (hconv : conv = 1 ∨ conv = 2) (k K : Vec3 ℝ) (m : Fin 3 → ℤ)
    (hK : ∀ x, K x = (∑ y, (Lz x y : ℝ) * k y) - m x) (I J N : Cell) (τi τj τa τb : Vec3 ℝ)
    (ha : ∀ y, ∑ x, τa x * (Lz x y : ℝ) = cellAt I y + τi y) (hb : ∀ y, ∑ x, τb x * (Lz x y : ℝ) = cellAt J y + τj y) :
    eiPhase (2 * Real.pi * ∑ x, K x * (cellAt N x + (if conv = 1 then τb x - τa x else 0))) *
      eiPhase (2 * Real.pi * reshPhase conv k m J τb) =
    eiPhase (2 * Real.pi * ∑ x, k x * (cellAt (J + rowMul N Lz - I) x + (if conv = 1 then τj x - τi x else 0))) *
      eiPhase (2 * Real.pi * reshPhase conv k m I τa) := by
  have hM : eiPhase (2 * Real.pi * ((-(m 0 * N.1 + m 1 * N.2.1 + m 2 * N.2.2) : ℤ) : ℝ)) = 1 := eiPhase_int _
  rw [← eiPhase_add, ← eiPhase_add]
  refine Eq.trans ?_ (mul_one _)
  rw [← hM, ← eiPhase_add]
  congr 1
  have a0 := ha 0
  have a1 := ha 1
  have a2 := ha 2
  have b0 := hb 0
  have b1 := hb 1
  have b2 := hb 2
  unfold reshPhase
  simp only [Fin.sum_univ_three] at a0 a1 a2 b0 b1 b2 ⊢
  rcases hconv with rfl | rfl
  · simp only [if_true, hK, Fin.sum_univ_three]
    simp only [cellAt, rowMul, Matrix.cons_val_zero, Matrix.cons_val_one, Matrix.cons_val, Prod.fst_sub, Prod.fst_add,
      Prod.snd_sub, Prod.snd_add] at a0 a1 a2 b0 b1 b2 ⊢
    push_cast
    linear_combination (2 * Real.pi) * (k 0 * (b0 - a0) + k 1 * (b1 - a1) + k 2 * (b2 - a2))
  · simp only [if_neg (show ¬ ((2 : ℤ) = 1) by decide), hK, Fin.sum_univ_three]
    simp only [cellAt, rowMul, Matrix.cons_val_zero, Matrix.cons_val_one, Matrix.cons_val, Prod.fst_sub, Prod.fst_add,
      Prod.snd_sub, Prod.snd_add]
    push_cast
    ring

/-- **C96.** Let `t` be the cell reshaped by the integer matrix `L` (under the restrictions of C95) from a synchronised cell
`s` obtained by any history, `K` any Bloch vector of `t`, `k` any Bloch vector of `s` and `m` an integer vector with
`L k = K + m` (`k` and `K` are the same point of reciprocal space up to a reciprocal vector of `t`).  If `v` is an eigenvector
of the Bloch Hamiltonian of `s` at `k` with eigenvalue `μ`, then the vector whose component on new orbital `a`, the image of
`i` in old cell `R`, is `exp(2πi φ_a) v_i` is an eigenvector of the Bloch Hamiltonian of `t` at `K` with eigenvalue `μ`; it is
nonzero if `v` is. -/
theorem C96_folding_partial (H : HashFns ℝ ℂ Λ) (hH : ∀ l, l ≠ [] → H.orb l ≠ H.orb []) (query : BallQuery ℝ)
    (hq : IsBallQuery query) (lat : Mat3 ℝ) (o : Vec3 ℝ) (cs : List (Call ℝ ℂ Λ)) (hr : InRange H (init H lat o) cs)
    (s : PrimCell ℝ ℂ Λ) (hs : s = run H (init H lat o) cs) (hsync : SyncFresh H s) (hf : ArraysFresh s) (ext : ℝ)
    (Lz : Matrix (Fin 3) (Fin 3) ℤ) (hL : Lz.det ≠ 0) (delta tol : ℝ) (ht : TolSep Lz tol)
    (hpos : ∀ ob ∈ s.orbs, ∀ x, 0 ≤ ob.position x ∧ ob.position x < 1) (hz : ∀ j, ∃ i, Lz i j = 0)
    (hdel : ∀ j, |delta * ((∑ i, Lz i j : ℤ) : ℝ)| ≤ 1) (t : PCObj ℝ ℂ Λ)
    (hres : reshapePrimCell H query ⟨s, ext⟩ (Lz.map (fun z : ℤ => (z : ℝ))) delta tol = .ok t)
    (hft : ArraysFresh (syncArray H t.cell)) :
    ∃ ids : List (Cell × ℕ), ids.length = t.cell.numOrb ∧ t.cell.numOrb = Lz.det.natAbs * s.numOrb ∧
      (∀ (a : ℕ) R i, ids[a]? = some (R, i) → ∃ ob ob', s.orbs[i]? = some ob ∧ t.cell.orbs[a]? = some ob' ∧
        ∀ y, ∑ x, ob'.position x * (Lz x y : ℝ) = cellAt R y + ob.position y) ∧
      (∀ (R : Cell) (i : ℕ), i < s.numOrb → ∃! q : ℕ × Cell, ids[q.1]? = some (R - rowMul q.2 Lz, i)) ∧
      ∀ (k K : Vec3 ℝ) (m : Fin 3 → ℤ), (∀ x, ∑ y, (Lz x y : ℝ) * k y = K x + m x) → ∀ (conv : ℤ) (hams hamt : IMat),
        setHamDense s k conv = .ok hams → setHamDense (syncArray H t.cell) K conv = .ok hamt → ∀ (v : ℕ → ℂ) (μ : ℂ),
        (∀ i < s.numOrb, ∑ j ∈ Finset.range s.numOrb, hams i j * v j = μ * v i) → ∀ w : ℕ → ℂ, (∀ (a : ℕ) R i ob', ids[a]? = some (R, i) → t.cell.orbs[a]? = some ob' →
          w a = Complex.exp (2 * Real.pi * reshPhase conv k m R ob'.position * Complex.I) * v i) →
        (∀ a < t.cell.numOrb, ∑ b ∈ Finset.range t.cell.numOrb, hamt a b * w b = μ * w a) ∧
        ((∃ i < s.numOrb, v i ≠ 0) → ∃ a < t.cell.numOrb, w a ≠ 0) := by
  have hwf : WF s := hs ▸ WF_run H (WF_init H lat o) cs hr
  have hhome := homeList_filter hL (delta := delta) (orbs := s.orbs) hpos hz (by
    intro j
    have := hdel j
    rwa [Fin.sum_univ_three] at this)
  obtain ⟨t1, S, h1, hS, h2, h3, h4, -, h5, h6, h7, h8⟩ := reshape_spec H hH hq ⟨s, ext⟩ hwf hsync hL ht hhome
  simp only at hS h3 h4 h5 h7 h8
  rw [h1] at hres
  simp only [Except.ok.injEq] at hres
  subst hres
  have hnum : t1.cell.numOrb = S.length := by rw [numOrb, h2, List.length_map]
  set ids : List (Cell × ℕ) := S.map (fun q => ((q.1.1, q.1.2.1, q.1.2.2.1), q.1.2.2.2.toNat)) with hids
  set conv' : Mat3 ℝ := (Lz.map (fun z : ℤ => (z : ℝ)))⁻¹ with hcv
  -- the entries of the list
  have sAt : ∀ a, a < S.length → ∃ (I : Cell) (i : ℕ) (ob : Orbital ℝ Λ), S[a]? = some (mkId I i, ob) ∧ i < s.numOrb ∧
      s.orbs[i]? = some ob := by
    intro a ha
    obtain ⟨⟨id, ob⟩, hSa⟩ : ∃ q, S[a]? = some q := ⟨_, List.getElem?_eq_getElem ha⟩
    have h0 := hS.sound _ _ _ (show (mkId (id.1, id.2.1, id.2.2.1) id.2.2.2, ob) ∈ S from List.mem_of_getElem? hSa)
    refine ⟨(id.1, id.2.1, id.2.2.1), id.2.2.2.toNat, ob, ?_, (List.getElem?_eq_some_iff.1 h0.2.1).1, h0.2.1⟩
    rw [Int.toNat_of_nonneg h0.1]
    exact hSa
  have idsAt : ∀ (a : ℕ) (R : Cell) (i : ℕ) ob, S[a]? = some (mkId R i, ob) → ids[a]? = some (R, i) := by
    intro a R i ob h
    rw [hids, List.getElem?_map, h]
    simp [mkId]
  have tAt : ∀ (a : ℕ) (R : Cell) (i : ℕ) ob, S[a]? = some (mkId R i, ob) →
      t1.cell.orbs[a]? = some (reshOrb conv' (mkId R i, ob)) := by
    intro a R i ob h
    rw [h2, List.getElem?_map, h]; rfl
  have posAt' : ∀ (R : Cell) (i : ℕ) (ob : Orbital ℝ Λ) y,
      ∑ x, (reshOrb conv' (mkId R i, ob)).position x * (Lz x y : ℝ) = cellAt R y + ob.position y := by
    intro R i ob y
    have h := congrFun (show Matrix.vecMul (resPos conv' R ob.position) (Lz.map (fun z : ℤ => (z : ℝ))) =
      cellVec ℝ R + ob.position by
        rw [resPos_eq, hcv, Matrix.vecMul_vecMul, Matrix.nonsing_inv_mul _ (isUnit_det hL), Matrix.vecMul_one]) y
    have h' : cellVec ℝ R y = cellAt R y := by fin_cases y <;> rfl
    rw [Pi.add_apply, h'] at h
    exact h
  refine ⟨ids, by rw [hids, List.length_map, hnum], by rw [hnum, homeList_length hS hL]; rfl, ?_, ?_, ?_⟩
  · intro a R i h
    have ha : a < S.length := by
      have := (List.getElem?_eq_some_iff.1 h).1
      rwa [hids, List.length_map] at this
    obtain ⟨I, i', ob, hSa, hi', hob⟩ := sAt a ha
    rw [idsAt a I i' ob hSa] at h
    simp only [Option.some.injEq, Prod.mk.injEq] at h
    obtain ⟨rfl, rfl⟩ := h
    exact ⟨ob, _, hob, tAt a I i' ob hSa, posAt' I i' ob⟩
  · intro R i hi
    obtain ⟨a, ha⟩ := hS.rep hL R (i := (i : ℤ)) (o := s.orbs[i]) (by omega)
      (by simpa using List.getElem?_eq_getElem hi)
    refine ⟨(a, resCell Lz delta R s.orbs[i].position), idsAt _ _ _ _ ha, ?_⟩
    rintro ⟨b, m⟩ hb
    have lb : b < S.length := by
      have := (List.getElem?_eq_some_iff.1 hb).1
      rwa [hids, List.length_map] at this
    obtain ⟨J, j, ob, hSb, hj, hob⟩ := sAt b lb
    have hb' := hb
    simp only [idsAt b J j ob hSb, Option.some.injEq, Prod.mk.injEq] at hb'
    obtain ⟨rfl, rfl⟩ := hb'
    have e : ob = s.orbs[j] := by
      rw [List.getElem?_eq_getElem hi] at hob
      exact (Option.some.inj hob).symm
    have g := hS.sound _ _ _ (List.mem_of_getElem? hSb)
    have hm : resCell Lz delta R s.orbs[j].position = m := by
      have := g.2.2
      rw [sub_eq_add_neg, ← rowMul_neg, resCell_shift hL, e, ← sub_eq_add_neg] at this
      exact sub_eq_zero.1 this
    refine Prod.ext ?_ hm.symm
    refine fst_idx_unique hS.nodup hSb ha ?_
    simp only
    rw [hm]
  intro k K m hK conv hams hamt hok hok' v μ hv w hw
  have hconv : conv = 1 ∨ conv = 2 := by
    by_contra hc
    unfold setHamDense at hok
    rw [if_pos hc] at hok
    simp at hok
  have hK' : ∀ x, K x = (∑ y, (Lz x y : ℝ) * k y) - m x := fun x => by rw [hK x]; ring
  set c := syncArray H t1.cell with hc
  have corbs : c.orbs = t1.cell.orbs := by
    rw [hc]; unfold syncArray syncHop
    simp only
    split_ifs <;> exact (syncOrb_orbs H t1.cell false).1
  have chops : c.hops.get = t1.cell.hops.get := by
    have hso : (syncOrb H t1.cell false).hops = t1.cell.hops := by
      unfold syncOrb; simp only; split_ifs <;> rfl
    rw [hc]; unfold syncArray syncHop
    simp only
    split_ifs <;> (show IntraHop.get (IntraHop.purge (syncOrb H t1.cell false).hops) = _
                   rw [hso, IntraHop.get_purge h6.inv])
  have cinv : IntraHop.Inv c.hops := by
    have hso : (syncOrb H t1.cell false).hops = t1.cell.hops := by
      unfold syncOrb; simp only; split_ifs <;> rfl
    rw [hc]; unfold syncArray syncHop
    simp only
    split_ifs <;> (show IntraHop.Inv (IntraHop.purge (syncOrb H t1.cell false).hops)
                   rw [hso]; exact IntraHop.Inv_purge h6.inv)
  have cwf : WF c := by
    refine WF_of_get cinv ?_
    intro R i j e he
    rw [chops] at he
    have := rng_of_get h6 he
    have cnum : c.numOrb = t1.cell.numOrb := by rw [PrimCell.numOrb, corbs]; rfl
    rwa [cnum]
  have hw' : ∀ (a : ℕ) (I : Cell) (i : ℕ) ob, S[a]? = some (mkId I i, ob) →
      w a = eiPhase (2 * Real.pi * reshPhase conv k m I (reshOrb conv' (mkId I i, ob)).position) * v i := by
    intro a I i ob h
    rw [hw a I i _ (idsAt a I i ob h) (tAt a I i ob h), eiPhase_eq_exp]; push_cast; rfl
  constructor
  · intro a ha
    rw [hnum] at ha
    obtain ⟨I, i, oi, hSa, hi, hoi⟩ := sAt a ha
    set φ := eiPhase (2 * Real.pi * reshPhase conv k m I (reshOrb conv' (mkId I i, oi)).position) with hφ
    let T : Finset Cell := ((C07_neighbours_finite c.hops a).image Prod.fst).toFinset
    have hT : ∀ b N, c.hops.get N a b ≠ none → N ∈ T := fun b N hN =>
      (Set.Finite.mem_toFinset _).2 ⟨(N, b), hN, rfl⟩
    let T' : Finset Cell := ((C07_neighbours_finite s.hops i).image Prod.fst).toFinset
    have hT' : ∀ b N, s.hops.get N i b ≠ none → N ∈ T' := fun b N hN =>
      (Set.Finite.mem_toFinset _).2 ⟨(N, b), hN, rfl⟩
    let ph : ℕ → Cell → ℂ := fun j R => eiPhase (2 * Real.pi * ∑ x, k x * (cellAt R x +
      (if conv = 1 then (s.orbs[j]?.elim 0 Orbital.position) x - oi.position x else 0)))
    -- the left-hand side
    have lhs : ∀ b ∈ Finset.range t1.cell.numOrb, hamt a b * w b =
        (if a = b then (oi.energy : ℂ) * (φ * v i) else 0) +
        ∑ N ∈ T, (c.hops.get N a b).getD 0 * (ids[b]?.elim 0 fun q => ph q.2 (q.1 + rowMul N Lz - I) * (φ * v q.2)) := by
      intro b hb
      rw [Finset.mem_range, hnum] at hb
      obtain ⟨J, j, oj, hSb, hj, hoj⟩ := sAt b hb
      rw [ham_entry cwf hft K conv hamt hok' a b _ _ (by rw [corbs]; exact tAt a I i oi hSa)
        (by rw [corbs]; exact tAt b J j oj hSb) T (fun R hR => hT _ R hR), hw' b J j oj hSb, add_mul, Finset.sum_mul]
      congr 1
      · by_cases hab : a = b
        · subst hab
          rw [hSa] at hSb
          simp only [Option.some.injEq, Prod.mk.injEq] at hSb
          obtain ⟨e1, e2⟩ := mkId_inj hSb.1
          have e2' : i = j := by omega
          obtain rfl := e1
          obtain rfl := e2'
          obtain rfl := hSb.2
          rw [if_pos rfl, if_pos rfl]
          rfl
        · rw [if_neg hab, if_neg hab, zero_mul]
      · apply Finset.sum_congr rfl
        intro N _
        rw [idsAt b J j oj hSb]
        have key := resh_key (Lz := Lz) hconv k K m hK' I J N oi.position oj.position
          (reshOrb conv' (mkId I i, oi)).position (reshOrb conv' (mkId J j, oj)).position (posAt' I i oi) (posAt' J j oj)
        simp only [Option.elim_some, ph, hoj]
        linear_combination ((c.hops.get N a b).getD 0 * v j) * key
    have rhs : ∀ j ∈ Finset.range s.numOrb, hams i j * v j =
        (if i = j then (oi.energy : ℂ) * v i else 0) + ∑ R ∈ T', (s.hops.get R i j).getD 0 * ph j R * v j := by
      intro j hj
      have hj' : j < s.numOrb := Finset.mem_range.1 hj
      have hoj : s.orbs[j]? = some s.orbs[j] := List.getElem?_eq_getElem hj'
      rw [ham_entry hwf hf k conv hams hok i j oi _ hoi hoj T' (fun R hR => hT' _ R hR), add_mul, Finset.sum_mul]
      congr 1
      · split_ifs with h
        · rw [h]
        · simp
      · simp only [ph, hoj, Option.elim_some]
    have hvi := hv i hi
    rw [Finset.sum_congr rfl rhs, Finset.sum_add_distrib, Finset.sum_ite_eq, if_pos (Finset.mem_range.2 hi)] at hvi
    rw [Finset.sum_congr rfl lhs, Finset.sum_add_distrib, Finset.sum_ite_eq, if_pos (by rw [Finset.mem_range, hnum]; exact ha),
      hw' a I i oi hSa, ← hφ]
    have e1 : μ * (φ * v i) = φ * (μ * v i) := by ring
    rw [e1, ← hvi, mul_add]
    congr 1
    · ring
    · rw [← Finset.sum_product', Finset.mul_sum]
      simp only [Finset.mul_sum]
      rw [← Finset.sum_product' (f := fun (j : ℕ) (R : Cell) => φ * ((s.hops.get R i j).getD 0 * ph j R * v j))]
      have split : ∀ q : ℕ × Cell, q ∈ Finset.range t1.cell.numOrb ×ˢ T → ∃ (J : Cell) (j : ℕ) (oj : Orbital ℝ Λ),
          S[q.1]? = some (mkId J j, oj) ∧ j < s.numOrb := by
        intro q hq
        have := Finset.mem_range.1 (Finset.mem_product.1 hq).1
        rw [hnum] at this
        obtain ⟨J, j, oj, g1, g2, -⟩ := sAt q.1 this
        exact ⟨J, j, oj, g1, g2⟩
      refine Finset.sum_bij_ne_zero (fun q _ _ => ((ids[q.1]?.elim 0 Prod.snd : ℕ),
        (ids[q.1]?.elim 0 Prod.fst : Cell) + rowMul q.2 Lz - I)) ?_ ?_ ?_ ?_
      · rintro ⟨b, N⟩ hq hne
        obtain ⟨J, j, oj, hSb, hj⟩ := split _ hq
        simp only [idsAt b J j oj hSb, Option.elim_some] at hne ⊢
        refine Finset.mem_product.2 ⟨Finset.mem_range.2 hj, hT' j _ ?_⟩
        rw [chops, h8 N a b I J i j oi oj hSa hSb] at hne
        intro h
        simp only at h
        rw [h] at hne
        simp at hne
      · rintro ⟨b, N⟩ hq hne ⟨b', N'⟩ hq' hne' heq
        obtain ⟨J, j, oj, hSb, hj⟩ := split _ hq
        obtain ⟨J', j', oj', hSb', hj'⟩ := split _ hq'
        simp only [idsAt b J j oj hSb, idsAt b' J' j' oj' hSb', Option.elim_some, Prod.mk.injEq] at heq
        obtain ⟨rfl, h9⟩ := heq
        have h10 : J = J' + rowMul (N' - N) Lz := by
          have h11 := sub_left_inj.1 h9
          rw [sub_eq_add_neg, rowMul_add, rowMul_neg, ← add_assoc, ← h11]
          abel
        have h12 := hS.unique hL (List.mem_of_getElem? hSb) (List.mem_of_getElem? hSb') h10
        have hN : N' = N := sub_eq_zero.1 h12
        rw [h12, rowMul_zero, add_zero] at h10
        have hb : b = b' := fst_idx_unique hS.nodup hSb hSb' (by simp only; rw [h10])
        rw [hb, hN]
      · rintro ⟨j, R⟩ hq hne
        have hj := Finset.mem_range.1 (Finset.mem_product.1 hq).1
        simp only at hj
        obtain ⟨b, hb⟩ := hS.rep hL (I + R) (i := (j : ℤ)) (o := s.orbs[j]) (by omega)
          (by simpa using List.getElem?_eq_getElem hj)
        set N := resCell Lz delta (I + R) s.orbs[j].position with hN
        have lb : b < S.length := (List.getElem?_eq_some_iff.1 hb).1
        have hR : I + R - rowMul N Lz + rowMul N Lz - I = R := by abel
        have hget := h8 N a b I _ i j oi _ hSa hb
        rw [hR] at hget
        refine ⟨(b, N), Finset.mem_product.2 ⟨Finset.mem_range.2 (by rw [hnum]; exact lb), hT b N ?_⟩, ?_, ?_⟩
        · rw [chops, hget]
          intro h
          rw [h] at hne
          simp at hne
        · simp only [idsAt b _ j _ hb, Option.elim_some]
          rw [chops, hget, hR]
          intro h
          apply hne
          simp only
          linear_combination h
        · simp only [idsAt b _ j _ hb, Option.elim_some, hR]
      · rintro ⟨b, N⟩ hq hne
        obtain ⟨J, j, oj, hSb, hj⟩ := split _ hq
        simp only [idsAt b J j oj hSb, Option.elim_some]
        rw [chops, h8 N a b I J i j oi oj hSa hSb]
        ring
  · rintro ⟨i, hi, hne⟩
    obtain ⟨a, ha⟩ := hS.rep hL 0 (i := (i : ℤ)) (o := s.orbs[i]) (by omega)
      (by simpa using List.getElem?_eq_getElem hi)
    refine ⟨a, by rw [hnum]; exact (List.getElem?_eq_some_iff.1 ha).1, ?_⟩
    rw [hw' a _ i _ ha]
    apply mul_ne_zero _ hne
    intro h
    have := eiPhase_mul_star (2 * Real.pi * reshPhase conv k m (0 - rowMul (resCell Lz delta 0 s.orbs[i].position) Lz)
      (reshOrb conv' (mkId (0 - rowMul (resCell Lz delta 0 s.orbs[i].position) Lz) i, s.orbs[i])).position)
    rw [h, zero_mul] at this
    exact zero_ne_one this

/-- The Bloch vectors of C96 exist: for every Bloch vector `K` of the reshaped cell and every integer vector `m` there is exactly
one `k` with `L k = K + m`. -/
theorem C96_bloch_vectors (Lz : Matrix (Fin 3) (Fin 3) ℤ) (hL : Lz.det ≠ 0) (K : Vec3 ℝ) (m : Fin 3 → ℤ) :
    ∃! k : Vec3 ℝ, ∀ x, ∑ y, (Lz x y : ℝ) * k y = K x + m x := by
  have hu : IsUnit (Lz.map (fun z : ℤ => (z : ℝ))).det := isUnit_det hL
  refine ⟨(Lz.map (fun z : ℤ => (z : ℝ)))⁻¹.mulVec (fun x => K x + m x), ?_, ?_⟩
  · intro x
    have h := congrFun (show (Lz.map (fun z : ℤ => (z : ℝ))).mulVec ((Lz.map (fun z : ℤ => (z : ℝ)))⁻¹.mulVec
        (fun x => K x + m x)) = _ by rw [Matrix.mulVec_mulVec, Matrix.mul_nonsing_inv _ hu, Matrix.one_mulVec]) x
    exact h
  · intro k hk
    have : (fun x => K x + (m x : ℝ)) = (Lz.map (fun z : ℤ => (z : ℝ))).mulVec k := by
      funext x; exact (hk x).symm
    rw [this, Matrix.mulVec_mulVec, Matrix.nonsing_inv_mul _ hu, Matrix.one_mulVec]

end Verif.Props

import Verif.Proof.Layers
import Verif.Props.Units
import Verif.Props.Passive

/-! # C144: response functions of parts of a crystal that are not coupled -/

namespace Verif.Props

open PrimCell

section Response

variable {L : Lind} {D₁ D₂ : Diag}

theorem part_sum (h : DirectSum L.D D₁ D₂) (hz : ZheevSpec L.D) (hz₁ : ZheevSpec D₁) (hz₂ : ZheevSpec D₂) {n : ℕ} {P P' : ℕ → Vec3 ℝ} {Q : Vec3 ℝ}
    {u v u₁ v₁ u₂ v₂ : (ℕ → ℕ → ℝ) × Arr3 ℂ} (hu : statesSpec L.D n P 2 = .ok u) (hv : statesSpec L.D n P' 2 = .ok v)
    (hu₁ : statesSpec D₁ n P 2 = .ok u₁) (hv₁ : statesSpec D₁ n P' 2 = .ok v₁) (hu₂ : statesSpec D₂ n P 2 = .ok u₂)
    (hv₂ : statesSpec D₂ n P' 2 = .ok v₂) (om : ℝ) :
    lindhardSum L n u v Q om = lindhardSum (L.part D₁ L.orbPos) n u₁ v₁ Q om +
      lindhardSum (L.part D₂ fun i => L.orbPos (D₁.nb + i)) n u₂ v₂ Q om := by
  rw [lindhard_pairs, lindhard_pairs, lindhard_pairs, ← Finset.sum_add_distrib]
  refine Finset.sum_congr rfl fun i hi => ?_
  have hi := Finset.mem_range.1 hi
  obtain ⟨m1, a1, a2⟩ := sum_pairs h hz hz₁ hz₂ (states_rows hu i hi) (states_rows hu₁ i hi) (states_rows hu₂ i hi)
  obtain ⟨m2, b1, b2⟩ := sum_pairs h hz hz₁ hz₂ (states_rows hv i hi) (states_rows hv₁ i hi) (states_rows hv₂ i hi)
  rw [h.nb]
  refine (pair_unique _ _ _ a1 a2 b1 b2).trans ?_
  have hw : ∀ a b, waveOp Q L.orbPos (D₁.nb + a) (D₁.nb + b) = waveOp Q (fun i => L.orbPos (D₁.nb + i)) a b := by
    intro a b
    simp only [waveOp, Nat.add_left_cancel_iff]
  rw [pairSum_join _ fun a ha b _ => ⟨if_neg (by omega), if_neg (by omega)⟩]
  simp only [hw]
  rfl

theorem part_table (h : DirectSum L.D D₁ D₂) (hz : ZheevSpec L.D) (hz₁ : ZheevSpec D₁) (hz₂ : ZheevSpec D₂) {X : Type}
    (l : List X) (P : X → ℕ → Vec3 ℝ) (qc : List (Vec3 ℝ)) {u u₁ u₂ : (ℕ → ℕ → ℝ) × Arr3 ℂ} {v v₁ v₂ : List ((ℕ → ℕ → ℝ) × Arr3 ℂ)}
    (hu : statesSpec L.D L.numKpt L.kFrac 2 = .ok u) (hu₁ : statesSpec D₁ L.numKpt L.kFrac 2 = .ok u₁)
    (hu₂ : statesSpec D₂ L.numKpt L.kFrac 2 = .ok u₂) (hv : l.mapM (fun x => statesSpec L.D L.numKpt (P x) 2) = .ok v)
    (hv₁ : l.mapM (fun x => statesSpec D₁ L.numKpt (P x) 2) = .ok v₁) (hv₂ : l.mapM (fun x => statesSpec D₂ L.numKpt (P x) 2) = .ok v₂) (iq iw : ℕ) :
    lindhardTable L u (qc.zip v) iq iw = lindhardTable (L.part D₁ L.orbPos) u₁ (qc.zip v₁) iq iw +
      lindhardTable (L.part D₂ fun i => L.orbPos (D₁.nb + i)) u₂ (qc.zip v₂) iq iw := by
  unfold lindhardTable
  have h0 := mapM_size _ _ _ hv
  have h1 := mapM_size _ _ _ hv₁
  have h2 := mapM_size _ _ _ hv₂
  have hom : ∀ D p, (L.part D p).omegas = L.omegas := fun _ _ => rfl
  simp only [hom]
  by_cases hl : iq < l.length ∧ iq < qc.length
  · obtain ⟨hl, hq⟩ := hl
    have hx : l[iq]? = some l[iq] := List.getElem?_eq_getElem hl
    have hqx : qc[iq]? = some qc[iq] := List.getElem?_eq_getElem hq
    obtain ⟨y, hy, hy'⟩ := mapM_get _ _ _ hv _ _ hx
    obtain ⟨y₁, hy₁, hy₁'⟩ := mapM_get _ _ _ hv₁ _ _ hx
    obtain ⟨y₂, hy₂, hy₂'⟩ := mapM_get _ _ _ hv₂ _ _ hx
    rw [show (qc.zip v)[iq]? = some (qc[iq], y) from List.getElem?_zip_eq_some.2 ⟨hqx, hy'⟩,
      show (qc.zip v₁)[iq]? = some (qc[iq], y₁) from List.getElem?_zip_eq_some.2 ⟨hqx, hy₁'⟩,
      show (qc.zip v₂)[iq]? = some (qc[iq], y₂) from List.getElem?_zip_eq_some.2 ⟨hqx, hy₂'⟩]
    cases L.omegas[iw]? with
    | none => simp
    | some om =>
      show lindhardSum L L.numKpt u y _ _ * ((lindhardFactor L : ℝ) : ℂ) / ((L.ext : ℝ) : ℂ) =
        lindhardSum _ L.numKpt u₁ y₁ _ _ * ((lindhardFactor L : ℝ) : ℂ) / ((L.ext : ℝ) : ℂ) +
        lindhardSum _ L.numKpt u₂ y₂ _ _ * ((lindhardFactor L : ℝ) : ℂ) / ((L.ext : ℝ) : ℂ)
      rw [part_sum h hz hz₁ hz₂ hu hy hu₁ hy₁ hu₂ hy₂]
      ring
  · have e : ∀ v : List ((ℕ → ℕ → ℝ) × Arr3 ℂ), v.length = l.length → (qc.zip v)[iq]? = none := by
      intro v hv
      rw [List.getElem?_eq_none_iff, List.length_zip]
      omega
    rw [e v h0, e v₁ h1, e v₂ h2]
    simp

/-- C144: the dynamical polarization of the whole is the sum of the polarizations of the parts, at any q-points. -/
theorem C144_dyn_arbitrary (h : DirectSum L.D D₁ D₂) (hz : ZheevSpec L.D) (hz₁ : ZheevSpec D₁) (hz₂ : ZheevSpec D₂) (hd : L.dim = 2 ∨ L.dim = 3)
    {w : World} (hn : w.size ≤ L.numKpt) {buf buf₁ buf₂ : ℕ → Buf} {fortran fortran₁ fortran₂ : Bool} {qs : List (Vec3 ℝ)} {d d₁ d₂ : ℕ → ℕ → ℕ → ℂ}
    (hok : L.dynPolArbitrary w buf fortran qs = .ok d) (hok₁ : (L.part D₁ L.orbPos).dynPolArbitrary w buf₁ fortran₁ qs = .ok d₁)
    (hok₂ : (L.part D₂ fun i => L.orbPos (D₁.nb + i)).dynPolArbitrary w buf₂ fortran₂ qs = .ok d₂)
    (r : ℕ) (hr : r < w.size) (iq iw : ℕ) : d r iq iw = d₁ r iq iw + d₂ r iq iw := by
  have g := arbitrary_run L w buf fortran qs hd hn r hr
  have g₁ := arbitrary_run (L.part D₁ L.orbPos) w buf₁ fortran₁ qs hd hn r hr
  have g₂ := arbitrary_run (L.part D₂ fun i => L.orbPos (D₁.nb + i)) w buf₂ fortran₂ qs hd hn r hr
  rw [hok] at g
  rw [hok₁] at g₁
  rw [hok₂] at g₂
  obtain ⟨t, ht, g⟩ := map_eq_ok g.symm
  obtain ⟨t₁, ht₁, g₁⟩ := map_eq_ok g₁.symm
  obtain ⟨t₂, ht₂, g₂⟩ := map_eq_ok g₂.symm
  have key : t = t₁ + t₂ := by
    unfold arbSpec at ht ht₁ ht₂
    obtain ⟨qf, hqf, ht⟩ := ok_split ht
    obtain ⟨u, hu, ht⟩ := ok_split ht
    obtain ⟨v, hv, ht⟩ := ok_split ht
    obtain ⟨qf₁, hqf₁, ht₁⟩ := ok_split ht₁
    obtain ⟨u₁, hu₁, ht₁⟩ := ok_split ht₁
    obtain ⟨v₁, hv₁, ht₁⟩ := ok_split ht₁
    obtain ⟨qf₂, hqf₂, ht₂⟩ := ok_split ht₂
    obtain ⟨u₂, hu₂, ht₂⟩ := ok_split ht₂
    obtain ⟨v₂, hv₂, ht₂⟩ := ok_split ht₂
    obtain rfl := Except.ok.inj ht
    obtain rfl := Except.ok.inj ht₁
    obtain rfl := Except.ok.inj ht₂
    obtain rfl : qf₁ = qf := Except.ok.inj (hqf₁.symm.trans hqf)
    obtain rfl : qf₂ = qf₁ := Except.ok.inj (hqf₂.symm.trans hqf)
    funext iq iw
    exact part_table h hz hz₁ hz₂ qf₂ _ qs hu hu₁ hu₂ hv hv₁ hv₂ iq iw
  replace g : _ = d r := g
  replace g₁ : _ = d₁ r := g₁
  replace g₂ : _ = d₂ r := g₂
  rw [← g, ← g₁, ← g₂, key]
  unfold scaleRows
  simp only [Pi.add_apply]
  ring

/-- C144: likewise at points of the mesh. -/
theorem C144_dyn_regular (h : DirectSum L.D D₁ D₂) (hz : ZheevSpec L.D) (hz₁ : ZheevSpec D₁) (hz₂ : ZheevSpec D₂) (hd : L.dim = 2 ∨ L.dim = 3)
    {w : World} (hn : w.size ≤ L.numKpt) {buf buf₁ buf₂ : ℕ → Buf} {fortran fortran₁ fortran₂ : Bool} {qs : List Grid} {d d₁ d₂ : ℕ → ℕ → ℕ → ℂ}
    (hok : L.dynPolRegular w buf fortran qs = .ok d) (hok₁ : (L.part D₁ L.orbPos).dynPolRegular w buf₁ fortran₁ qs = .ok d₁)
    (hok₂ : (L.part D₂ fun i => L.orbPos (D₁.nb + i)).dynPolRegular w buf₂ fortran₂ qs = .ok d₂)
    (r : ℕ) (hr : r < w.size) (iq iw : ℕ) : d r iq iw = d₁ r iq iw + d₂ r iq iw := by
  have g := regular_run L w buf fortran qs hd hn r hr
  have g₁ := regular_run (L.part D₁ L.orbPos) w buf₁ fortran₁ qs hd hn r hr
  have g₂ := regular_run (L.part D₂ fun i => L.orbPos (D₁.nb + i)) w buf₂ fortran₂ qs hd hn r hr
  rw [hok] at g
  rw [hok₁] at g₁
  rw [hok₂] at g₂
  obtain ⟨t, ht, g⟩ := map_eq_ok g.symm
  obtain ⟨t₁, ht₁, g₁⟩ := map_eq_ok g₁.symm
  obtain ⟨t₂, ht₂, g₂⟩ := map_eq_ok g₂.symm
  have key : t = t₁ + t₂ := by
    unfold regSpec at ht ht₁ ht₂
    obtain ⟨qc, hqc, ht⟩ := ok_split ht
    obtain ⟨u, hu, ht⟩ := ok_split ht
    obtain ⟨v, hv, ht⟩ := ok_split ht
    obtain ⟨qc₁, hqc₁, ht₁⟩ := ok_split ht₁
    obtain ⟨u₁, hu₁, ht₁⟩ := ok_split ht₁
    obtain ⟨v₁, hv₁, ht₁⟩ := ok_split ht₁
    obtain ⟨qc₂, hqc₂, ht₂⟩ := ok_split ht₂
    obtain ⟨u₂, hu₂, ht₂⟩ := ok_split ht₂
    obtain ⟨v₂, hv₂, ht₂⟩ := ok_split ht₂
    obtain rfl := Except.ok.inj ht
    obtain rfl := Except.ok.inj ht₁
    obtain rfl := Except.ok.inj ht₂
    obtain rfl : qc₁ = qc := Except.ok.inj (hqc₁.symm.trans hqc)
    obtain rfl : qc₂ = qc₁ := Except.ok.inj (hqc₂.symm.trans hqc)
    funext iq iw
    exact part_table h hz hz₁ hz₂ qs _ qc₂ hu hu₁ hu₂ hv hv₁ hv₂ iq iw
  replace g : _ = d r := g
  replace g₁ : _ = d₁ r := g₁
  replace g₂ : _ = d₂ r := g₂
  rw [← g, ← g₁, ← g₂, key]
  unfold scaleRows
  simp only [Pi.add_apply]
  ring

theorem part_vel {n : ℕ} {hops hops₁ hops₂ : List (Cell × Pair × ℂ)} (h : HopsOfParts n hops hops₁ hops₂) (A : Mat3 ℝ) (pos : ℤ → Vec3 ℝ)
    (K : Vec3 ℝ) (x : Fin 3) :
    (∀ a b : ℕ, a < n → b < n → velocity A pos [] hops K x a b = velocity A pos [] hops₁ K x a b) ∧
    (∀ a b : ℕ, velocity A pos [] hops K x (n + a : ℕ) (n + b : ℕ) = velocity A (fun i => pos (i + n)) [] hops₂ K x a b) ∧
    ∀ a b : ℕ, a < n → velocity A pos [] hops K x a (n + b : ℕ) = 0 ∧ velocity A pos [] hops K x (n + b : ℕ) a = 0 := by
  have hsum : ∀ a b : ℤ, velocity A pos [] hops K x a b = (hops₁.map fun t => velTerm K x a b (t.2.1, t.2.2, hopDrNm A pos t)).sum +
      (hops₂.map fun t => velTerm K x a b ((t.2.1.1 + n, t.2.1.2 + n), t.2.2, hopDrNm A (fun i => pos (i + n)) t)).sum := by
    intro a b
    rw [← velMat_eq, velMat_apply]
    unfold acHops
    rw [List.map_map, (h.perm.map _).sum_eq, List.map_append, List.sum_append, List.map_map]
    rfl
  have z1 : ∀ a b : ℤ, ((n : ℤ) ≤ a ∨ (n : ℤ) ≤ b) → (hops₁.map fun t => velTerm K x a b (t.2.1, t.2.2, hopDrNm A pos t)).sum = 0 := by
    intro a b hab
    refine List.sum_eq_zero fun y hy => ?_
    obtain ⟨t, ht, rfl⟩ := List.mem_map.1 hy
    obtain ⟨h1, h2⟩ := h.first t ht
    unfold velTerm
    rw [if_neg, if_neg, add_zero]
    · intro e
      simp only [Prod.ext_iff] at e
      omega
    · intro e
      simp only [Prod.ext_iff] at e
      omega
  have z2 : ∀ a b : ℤ, (a < n ∨ b < n) →
      (hops₂.map fun t => velTerm K x a b ((t.2.1.1 + n, t.2.1.2 + n), t.2.2, hopDrNm A (fun i => pos (i + n)) t)).sum = 0 := by
    intro a b hab
    refine List.sum_eq_zero fun y hy => ?_
    obtain ⟨t, ht, rfl⟩ := List.mem_map.1 hy
    obtain ⟨h1, h2⟩ := h.second t ht
    unfold velTerm
    rw [if_neg, if_neg, add_zero]
    · intro e
      simp only [Prod.ext_iff] at e
      omega
    · intro e
      simp only [Prod.ext_iff] at e
      omega
  refine ⟨fun a b ha hb => ?_, fun a b => ?_, fun a b ha => ⟨?_, ?_⟩⟩
  · rw [hsum, z2 _ _ (by omega), add_zero, ← velMat_eq, velMat_apply]
    unfold acHops
    rw [List.map_map]
    rfl
  · rw [hsum, z1 _ _ (by push_cast; omega), zero_add, ← velMat_eq, velMat_apply]
    unfold acHops
    rw [List.map_map]
    congr 1
    refine List.map_congr_left fun t _ => ?_
    simp only [Function.comp, velTerm]
    have e : ∀ a b : ℕ, ((t.2.1.1 + (n : ℤ), t.2.1.2 + (n : ℤ)) = (((n + a : ℕ) : ℤ), ((n + b : ℕ) : ℤ))) ↔ t.2.1 = ((a : ℤ), (b : ℤ)) := by
      intro a b
      simp only [Prod.ext_iff]
      push_cast
      constructor <;> intro h <;> constructor <;> omega
    simp only [e]
  · rw [hsum, z1 _ _ (by push_cast; omega), z2 _ _ (by push_cast; omega), add_zero]
  · rw [hsum, z1 _ _ (by push_cast; omega), z2 _ _ (by push_cast; omega), add_zero]

/-- C144: the AC conductivity of the whole is the sum of the conductivities of the parts. -/
theorem C144_ac (h : DirectSum L.D D₁ D₂) (hz : ZheevSpec L.D) (hz₁ : ZheevSpec D₁) (hz₂ : ZheevSpec D₂) {w w₁ w₂ : World}
    (hn : w.size ≤ L.numKpt) (hn₁ : w₁.size ≤ L.numKpt) (hn₂ : w₂.size ≤ L.numKpt) {buf buf₁ buf₂ : ℕ → Buf} {fortran fortran₁ fortran₂ : Bool}
    {pos : ℤ → Vec3 ℝ} {hops hops₁ hops₂ : List (Cell × Pair × ℂ)} (hh : HopsOfParts D₁.nb hops hops₁ hops₂) {comp : Option (Fin 3 × Fin 3)}
    {d d₁ d₂ : ℕ → ℕ → ℂ} (hok : L.acCond w buf fortran pos hops comp = .ok d)
    (hok₁ : (L.part D₁ L.orbPos).acCond w₁ buf₁ fortran₁ pos hops₁ comp = .ok d₁)
    (hok₂ : (L.part D₂ fun i => L.orbPos (D₁.nb + i)).acCond w₂ buf₂ fortran₂ (fun i => pos (i + D₁.nb)) hops₂ comp = .ok d₂)
    (r : ℕ) (hr : r < w.size) (r₁ : ℕ) (hr₁ : r₁ < w₁.size) (r₂ : ℕ) (hr₂ : r₂ < w₂.size) (iw : ℕ) : d r iw = d₁ r₁ iw + d₂ r₂ iw := by
  have g := ac_run L w buf fortran pos [] hops comp hn r hr
  have g₁ := ac_run (L.part D₁ L.orbPos) w₁ buf₁ fortran₁ pos [] hops₁ comp hn₁ r₁ hr₁
  have g₂ := ac_run (L.part D₂ fun i => L.orbPos (D₁.nb + i)) w₂ buf₂ fortran₂ (fun i => pos (i + D₁.nb)) [] hops₂ comp hn₂ r₂ hr₂
  rw [hok] at g
  rw [hok₁] at g₁
  rw [hok₂] at g₂
  replace g := g.symm
  replace g₁ := g₁.symm
  replace g₂ := g₂.symm
  unfold acSpec at g g₁ g₂
  obtain ⟨km, hkm, g⟩ := ok_split g
  obtain ⟨km₁, hkm₁, g₁⟩ := ok_split g₁
  obtain ⟨km₂, hkm₂, g₂⟩ := ok_split g₂
  cases comp with
  | none => cases g
  | some cp =>
  obtain ⟨_, hcp, g⟩ := ok_split g
  cases hcp
  obtain ⟨_, hcp, g₁⟩ := ok_split g₁
  cases hcp
  obtain ⟨_, hcp, g₂⟩ := ok_split g₂
  cases hcp
  obtain ⟨s, hs, g⟩ := ok_split g
  obtain ⟨s₁, hs₁, g₁⟩ := ok_split g₁
  obtain ⟨s₂, hs₂, g₂⟩ := ok_split g₂
  obtain rfl : km₁ = km := Except.ok.inj (hkm₁.symm.trans hkm)
  obtain rfl : km₂ = km₁ := Except.ok.inj (hkm₂.symm.trans hkm)
  have hk : ∀ om, kuboSum L pos [] hops cp s (fun i => km₂.getD i 0) om =
      kuboSum (L.part D₁ L.orbPos) pos [] hops₁ cp s₁ (fun i => km₂.getD i 0) om +
      kuboSum (L.part D₂ fun i => L.orbPos (D₁.nb + i)) (fun i => pos (i + D₁.nb)) [] hops₂ cp s₂ (fun i => km₂.getD i 0) om := by
    intro om
    unfold kuboSum
    refine Eq.trans (Finset.sum_congr rfl fun i hi => ?_) Finset.sum_add_distrib
    have hi : i < L.numKpt := Finset.mem_range.1 hi
    obtain ⟨m, a1, a2⟩ := sum_pairs h hz hz₁ hz₂ (states_rows hs i hi) (states_rows hs₁ i hi) (states_rows hs₂ i hi)
    rw [kubo_pairs, kubo_pairs, kubo_pairs, h.nb]
    refine (pair_unique _ _ _ a1 a2 a1 a2).trans ?_
    have hv := fun x => part_vel hh L.lat pos (km₂.getD i 0) x
    rw [pairSum_join _ fun a ha b _ => (hv cp.1).2.2 a b ha]
    have f₁ := pairSum_congr (kuboFactor L om) (fun a ha b hb => (hv cp.1).1 a b ha hb) (fun a ha b hb => (hv cp.2).1 a b ha hb) (rowOf s₁ i) (rowOf s₁ i)
    have f₂ := pairSum_congr (n := D₂.nb) (kuboFactor L om) (fun a _ b _ => (hv cp.1).2.1 a b) (fun a _ b _ => (hv cp.2).2.1 a b) (rowOf s₂ i) (rowOf s₂ i)
    exact congrArg₂ (· + ·) f₁ f₂
  have e := congrFun (Except.ok.inj g) iw
  have e₁ := congrFun (Except.ok.inj g₁) iw
  have e₂ := congrFun (Except.ok.inj g₂) iw
  refine e.symm.trans (Eq.trans ?_ (congrArg₂ (· + ·) e₁ e₂))
  have c1 : ∀ D p, (L.part D p).omegas = L.omegas := fun _ _ => rfl
  have c2 : ∀ D p, cellSize (L.part D p) = cellSize L := fun _ _ => rfl
  have c3 : ∀ D p, (L.part D p).numKpt = L.numKpt := fun _ _ => rfl
  have c4 : ∀ D p, (L.part D p).gs = L.gs := fun _ _ => rfl
  have c5 : ∀ D p, (L.part D p).ext = L.ext := fun _ _ => rfl
  simp only [c1, c2, c3, c4, c5]
  cases L.omegas[iw]? with
  | none => simp
  | some om =>
    simp only [hk]
    rw [mul_add, add_div]

/-- C144: the dielectric function `calc_epsilon` finds for the whole differs from one by as much as those of the parts together. -/
theorem C144_epsilon (h : DirectSum L.D D₁ D₂) (hz : ZheevSpec L.D) (hz₁ : ZheevSpec D₁) (hz₂ : ZheevSpec D₂) (hd : L.dim = 2 ∨ L.dim = 3)
    {w : World} (hn : w.size ≤ L.numKpt) {buf buf₁ buf₂ : ℕ → Buf} {fortran fortran₁ fortran₂ : Bool} {qs : List (Vec3 ℝ)} {d d₁ d₂ : ℕ → ℕ → ℕ → ℂ}
    (hok : L.dynPolArbitrary w buf fortran qs = .ok d) (hok₁ : (L.part D₁ L.orbPos).dynPolArbitrary w buf₁ fortran₁ qs = .ok d₁)
    (hok₂ : (L.part D₂ fun i => L.orbPos (D₁.nb + i)).dynPolArbitrary w buf₂ fortran₂ qs = .ok d₂) (r : ℕ) (hr : r < w.size) (backEps : ℝ) :
    ∃ e e₁ e₂, L.calcEpsilon backEps (.array qs) qs.length (d r) = .ok e ∧
      (L.part D₁ L.orbPos).calcEpsilon backEps (.array qs) qs.length (d₁ r) = .ok e₁ ∧
      (L.part D₂ fun i => L.orbPos (D₁.nb + i)).calcEpsilon backEps (.array qs) qs.length (d₂ r) = .ok e₂ ∧
      ∀ i q, qs[i]? = some q → norm3 q ≠ 0 → ∀ iw < L.omegas.length, ∃ z z₁ z₂, e i iw = some z ∧ e₁ i iw = some z₁ ∧ e₂ i iw = some z₂ ∧
        z - 1 = (z₁ - 1) + (z₂ - 1) := by
  obtain ⟨e, he, f⟩ := C126_epsilon L backEps qs qs.length le_rfl (d r)
  obtain ⟨e₁, he₁, f₁⟩ := C126_epsilon (L.part D₁ L.orbPos) backEps qs qs.length le_rfl (d₁ r)
  obtain ⟨e₂, he₂, f₂⟩ := C126_epsilon (L.part D₂ fun i => L.orbPos (D₁.nb + i)) backEps qs qs.length le_rfl (d₂ r)
  refine ⟨e, e₁, e₂, he, he₁, he₂, fun i q hq hq0 iw hiw => ⟨_, _, _, (f i q hq iw hiw).2 hq0, (f₁ i q hq iw hiw).2 hq0, (f₂ i q hq iw hiw).2 hq0, ?_⟩⟩
  have hdim : ∀ D p, (L.part D p).dim = L.dim := fun _ _ => rfl
  simp only [hdim]
  rw [C144_dyn_arbitrary h hz hz₁ hz₂ hd hn hok hok₁ hok₂ r hr i iw]
  ring

end Response

section Cell

variable {Λ : Type}

/-- C144: the Hamiltonian of a cell that holds the orbitals of two cells and the hoppings inside each of them is the direct sum. -/
theorem C144_cell {s s₁ s₂ : PrimCell ℝ ℂ Λ} (hw : WF s) (hf : ArraysFresh s) (hw₁ : WF s₁) (hf₁ : ArraysFresh s₁) (hw₂ : WF s₂)
    (hf₂ : ArraysFresh s₂) (ho : s.orbs = s₁.orbs ++ s₂.orbs)
    (h11 : ∀ R, ∀ i < s₁.numOrb, ∀ j < s₁.numOrb, s.hops.get R (i : ℕ) (j : ℕ) = s₁.hops.get R (i : ℕ) (j : ℕ))
    (h22 : ∀ R, ∀ i < s₂.numOrb, ∀ j < s₂.numOrb, s.hops.get R (s₁.numOrb + i : ℕ) (s₁.numOrb + j : ℕ) = s₂.hops.get R (i : ℕ) (j : ℕ))
    (h12 : ∀ R, ∀ i < s₁.numOrb, ∀ j < s₂.numOrb, s.hops.get R (i : ℕ) (s₁.numOrb + j : ℕ) = none ∧ s.hops.get R (s₁.numOrb + j : ℕ) (i : ℕ) = none)
    {D D₁ D₂ : Diag} (hD : SolvesCell D s) (hD₁ : SolvesCell D₁ s₁) (hD₂ : SolvesCell D₂ s₂) : DirectSum D D₁ D₂ := by
  have hnb : s.numOrb = s₁.numOrb + s₂.numOrb := by simp [numOrb, ho]
  refine ⟨by rw [hD.nb, hD₁.nb, hD₂.nb, hnb], ⟨hD.plain, hD₁.plain, hD₂.plain⟩, fun k conv m m₁ m₂ hm hm₁ hm₂ => ?_⟩
  rw [hD₁.nb, hD₂.nb]
  have lo : ∀ i (hi : i < s₁.numOrb), s.orbs[i]? = some (s₁.orbs[i]'hi) := fun i hi => by
    rw [ho, List.getElem?_append_left hi]
    exact List.getElem?_eq_getElem hi
  have hi' : ∀ i (hi : i < s₂.numOrb), s.orbs[s₁.numOrb + i]? = some (s₂.orbs[i]'hi) := fun i hi => by
    have h : (s₁.orbs ++ s₂.orbs)[s₁.orbs.length + i]? = s₂.orbs[i]? := by
      rw [List.getElem?_append_right (Nat.le_add_right _ _), Nat.add_sub_cancel_left]
    rw [ho]
    exact h.trans (List.getElem?_eq_getElem hi)
  refine ⟨fun i hi j hj => ?_, fun i hi j hj => ?_, fun i hi j hj => ⟨?_, ?_⟩⟩
  · have hS : ∀ R, s₁.hops.get R i j ≠ none → R ∈ ((C07_neighbours_finite s₁.hops (i : ℕ)).image Prod.fst).toFinset :=
      fun R hR => (Set.Finite.mem_toFinset _).2 ⟨(R, (j : ℕ)), hR, rfl⟩
    rw [ham_entry hw₁ hf₁ k conv m₁ (hD₁.ham _ _ _ hm₁) i j _ _ (List.getElem?_eq_getElem hi) (List.getElem?_eq_getElem hj) _ hS,
      ham_entry hw hf k conv m (hD.ham _ _ _ hm) i j _ _ (lo i hi) (lo j hj) _ (fun R hR => hS R (by rwa [← h11 R i hi j hj]))]
    simp only [h11 _ i hi j hj]
  · have hS : ∀ R, s₂.hops.get R i j ≠ none → R ∈ ((C07_neighbours_finite s₂.hops (i : ℕ)).image Prod.fst).toFinset :=
      fun R hR => (Set.Finite.mem_toFinset _).2 ⟨(R, (j : ℕ)), hR, rfl⟩
    rw [ham_entry hw₂ hf₂ k conv m₂ (hD₂.ham _ _ _ hm₂) i j _ _ (List.getElem?_eq_getElem hi) (List.getElem?_eq_getElem hj) _ hS,
      ham_entry hw hf k conv m (hD.ham _ _ _ hm) (s₁.numOrb + i) (s₁.numOrb + j) _ _ (hi' i hi) (hi' j hj) _
        (fun R hR => hS R (by rwa [← h22 R i hi j hj]))]
    simp only [h22 _ i hi j hj, Nat.add_left_cancel_iff]
  · rw [ham_entry hw hf k conv m (hD.ham _ _ _ hm) i (s₁.numOrb + j) _ _ (lo i hi) (hi' j hj) ∅ (fun R hR => absurd (h12 R i hi j hj).1 hR),
      if_neg (by omega), Finset.sum_empty, add_zero]
  · rw [ham_entry hw hf k conv m (hD.ham _ _ _ hm) (s₁.numOrb + j) i _ _ (hi' j hj) (lo i hi) ∅ (fun R hR => absurd (h12 R i hi j hj).2 hR),
      if_neg (by omega), Finset.sum_empty, add_zero]

end Cell

section Case

/-- A calculation for which all Hamiltonians can be diagonalised runs to its end. -/
theorem calc_runs {L : Lind} (hE : ∀ k conv, ∃ q, eigen L.D k conv = .ok q) (hdet : L.lat.det ≠ 0) (hd : L.dim = 2 ∨ L.dim = 3) (w : World)
    (hn : w.size ≤ L.numKpt) (buf : ℕ → Buf) (fortran : Bool) (qs : List (Vec3 ℝ)) (pos : ℤ → Vec3 ℝ) (hops : List (Cell × Pair × ℂ))
    (comp : Fin 3 × Fin 3) :
    (∃ d, L.dynPolArbitrary w buf fortran qs = .ok d) ∧ ∃ d, L.acCond w buf fortran pos hops (some comp) = .ok d := by
  have hst : ∀ (n : ℕ) (P : ℕ → Vec3 ℝ) (conv : ℤ), ∃ u, statesSpec L.D n P conv = .ok u := by
    intro n P conv
    have : firstErr (fun i => eigen L.D (P i) conv) (List.range n) = none := by
      rw [firstErr_none]
      exact fun i _ => hE _ _
    exact ⟨_, by rw [statesSpec_eq, this]; rfl⟩
  constructor
  · have h := arbitrary_run L w buf fortran qs hd hn 0 w.pos
    obtain ⟨qf, hqf⟩ := cart_ok _ hdet qs
    obtain ⟨u, hu⟩ := hst L.numKpt L.kFrac 2
    have hm : ∀ l : List (Vec3 ℝ), ∃ v, l.mapM (fun q => statesSpec L.D L.numKpt (fun i => L.kFrac i + q) 2) = .ok v := by
      intro l
      induction l with
      | nil => exact ⟨[], rfl⟩
      | cons q l ih =>
        obtain ⟨v, hv⟩ := ih
        obtain ⟨y, hy⟩ := hst L.numKpt (fun i => L.kFrac i + q) 2
        exact ⟨y :: v, by rw [List.mapM_cons, hy, hv]; rfl⟩
    obtain ⟨v, hv⟩ := hm qf
    have hspec : ∃ t, arbSpec L qs = .ok t := by
      unfold arbSpec
      simp only [hqf, hu, hv, bind, Except.bind]
      exact ⟨_, rfl⟩
    obtain ⟨t, ht⟩ := hspec
    rw [ht] at h
    obtain ⟨d, hd, -⟩ := map_eq_ok h
    exact ⟨d, hd⟩
  · obtain ⟨u, hu⟩ := hst L.numKpt L.kFrac 1
    have h := ac_run L w buf fortran pos [] hops (some comp) hn 0 w.pos
    simp only [acSpec, Lind.frac2cart, recip_some _ hdet, hu, bind, Except.bind] at h
    obtain ⟨d, h, -⟩ := map_eq_ok h
    exact ⟨d, h⟩

/-- Two molecules with different hoppings in one cell, and an eigensolver that may mix their states. -/
noncomputable def twoSolver (t t' : ℝ) : Diag where
  nb := 4
  setHam _ _ h := .ok fun a b => h a b + (if a = 0 ∧ b = 1 ∨ a = 1 ∧ b = 0 then (t : ℂ) else 0) + if a = 2 ∧ b = 3 ∨ a = 3 ∧ b = 2 then (t' : ℂ) else 0
  zheev := anyZheev 4
  argsort := sortedIdx 4

theorem two_sum (t t' : ℝ) : DirectSum (twoSolver t t') (pairSolver t) (pairSolver t') := by
  refine ⟨rfl, ⟨rfl, rfl, rfl⟩, fun k conv m m₁ m₂ hm hm₁ hm₂ => ?_⟩
  obtain rfl := Except.ok.inj hm
  obtain rfl := Except.ok.inj hm₁
  obtain rfl := Except.ok.inj hm₂
  refine ⟨fun i hi j hj => ?_, fun i hi j hj => ?_, fun i hi j hj => ?_⟩ <;>
  · have hi : i < 2 := hi
    have hj : j < 2 := hj
    have h2 : (pairSolver t).nb = 2 := rfl
    interval_cases i <;> interval_cases j <;> simp [h2]

theorem two_eigen (t t' : ℝ) (k : Vec3 ℝ) (conv : ℤ) : ∃ q, eigen (twoSolver t t') k conv = .ok q := by
  have h := two_sum t t'
  obtain ⟨m₁, hm₁, hz₁⟩ := eigen_ok _ h.plain.2.1 k conv _ (pairSolver_eigen t k conv)
  obtain ⟨m₂, hm₂, hz₂⟩ := eigen_ok _ h.plain.2.2 k conv _ (pairSolver_eigen t' k conv)
  obtain ⟨m, hm⟩ : ∃ m, (twoSolver t t').setHam k conv (fun _ _ => 0) = .ok m := ⟨_, rfl⟩
  obtain ⟨h11, h22, h12⟩ := h.ham k conv m m₁ m₂ hm hm₁ hm₂
  have hex : ∃ q, Eigenpairs 4 4 m q := ⟨_, join_pairs h11 h22 h12 (pair_zheev t _ _ hz₁) (pair_zheev t' _ _ hz₂)⟩
  obtain ⟨q, hq⟩ : ∃ q, (twoSolver t t').zheev m = some q := by
    refine ⟨hex.choose, ?_⟩
    show anyZheev _ _ = _
    unfold anyZheev
    exact dif_pos hex
  refine ⟨q, ?_⟩
  unfold eigen
  rw [hm]
  simp only [hq]
  rfl

/-- The calculator of the two molecules. -/
noncomputable def twoCalc : Lind := { pairCalc with D := twoSolver 1 3 }

/-- Two molecules side by side: the hypotheses of C144 hold and all calculations run to their ends. -/
theorem C144_example (w : World) (hw : w.size = 1) (buf : ℕ → Buf) (fortran : Bool) (Q : Vec3 ℝ) :
    ∃ x x₁ x₂ d d₁ d₂, twoCalc.dynPolArbitrary w buf fortran [Q] = .ok x ∧
      (twoCalc.part (pairSolver 1) twoCalc.orbPos).dynPolArbitrary w buf fortran [Q] = .ok x₁ ∧
      (twoCalc.part (pairSolver 3) fun i => twoCalc.orbPos (2 + i)).dynPolArbitrary w buf fortran [Q] = .ok x₂ ∧
      twoCalc.acCond w buf fortran (fun i => ![i, 0, 0]) [((0, 0, 0), (2, 3), 3), ((0, 0, 0), (0, 1), 1)] (some (0, 0)) = .ok d ∧
      (twoCalc.part (pairSolver 1) twoCalc.orbPos).acCond w buf fortran (fun i => ![i, 0, 0]) [((0, 0, 0), (0, 1), 1)] (some (0, 0)) = .ok d₁ ∧
      (twoCalc.part (pairSolver 3) fun i => twoCalc.orbPos (2 + i)).acCond w buf fortran (fun i => ![(i + (2 : ℕ) : ℤ), 0, 0]) [((0, 0, 0), (0, 1), 3)]
        (some (0, 0)) = .ok d₂ ∧
      x 0 0 0 = x₁ 0 0 0 + x₂ 0 0 0 ∧ d 0 0 = d₁ 0 0 + d₂ 0 0 := by
  have hn1 : twoCalc.numKpt = 1 := by
    show (buildKmeshGrid (1, 1, 1)).length = 1
    decide
  have hdet : twoCalc.lat.det ≠ 0 := by simp [twoCalc, pairCalc]
  have hz : ZheevSpec twoCalc.D := fun _ _ hq => anyZheev_spec hq
  obtain ⟨⟨x, hx⟩, d, hd⟩ := calc_runs (L := twoCalc) (two_eigen 1 3) hdet (Or.inr rfl) w (by omega) buf fortran [Q] (fun i => ![(i : ℝ), 0, 0])
    [((0, 0, 0), (2, 3), 3), ((0, 0, 0), (0, 1), 1)] (0, 0)
  obtain ⟨⟨x₁, hx₁⟩, d₁, hd₁⟩ := calc_runs (L := twoCalc.part (pairSolver 1) twoCalc.orbPos) (fun k c => ⟨_, pairSolver_eigen 1 k c⟩) hdet (Or.inr rfl) w
    (hw.trans hn1.symm).le buf fortran [Q] (fun i => ![(i : ℝ), 0, 0]) [((0, 0, 0), (0, 1), 1)] (0, 0)
  obtain ⟨⟨x₂, hx₂⟩, d₂, hd₂⟩ := calc_runs (L := twoCalc.part (pairSolver 3) fun i => twoCalc.orbPos (2 + i)) (fun k c => ⟨_, pairSolver_eigen 3 k c⟩) hdet
    (Or.inr rfl) w (hw.trans hn1.symm).le buf fortran [Q] (fun i => ![((i + (2 : ℕ) : ℤ) : ℝ), 0, 0]) [((0, 0, 0), (0, 1), 3)] (0, 0)
  refine ⟨x, x₁, x₂, d, d₁, d₂, hx, hx₁, hx₂, hd, hd₁, hd₂, ?_, ?_⟩
  · exact C144_dyn_arbitrary (L := twoCalc) (two_sum 1 3) hz (pair_zheev 1) (pair_zheev 3) (Or.inr rfl) (by omega) hx hx₁ hx₂ 0 w.pos 0 0
  · refine C144_ac (L := twoCalc) (two_sum 1 3) hz (pair_zheev 1) (pair_zheev 3) (by omega) (by omega) (by omega) ⟨?_, ?_, ?_⟩ hd hd₁ hd₂ 0 w.pos 0 w.pos 0 w.pos 0
    · exact List.Perm.swap _ _ _
    · intro t ht
      obtain rfl := List.mem_singleton.1 ht
      decide
    · intro t ht
      obtain rfl := List.mem_singleton.1 ht
      decide

end Case

end Verif.Props

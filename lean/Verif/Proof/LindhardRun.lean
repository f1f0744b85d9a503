import Verif.Proof.LindhardMesh

/-! # The whole calculation of the dynamic polarizability -/

namespace Verif
open Props

theorem statesSpec_eq (D : Diag) (n : ℕ) (kpts : ℕ → Vec3 ℝ) (conv : ℤ) :
    statesSpec D n kpts conv = rowsOut (firstErr (fun i => eigen D (kpts i) conv) (List.range n))
      (fun i b => if i < n then (eigVal D (kpts i) conv).1 b else 0,
       fun i b o => if i < n then (eigVal D (kpts i) conv).2 o b else 0) := by
  rw [statesSpec, eigens_eq, rowsOut_map]
  congr 1
  refine Prod.ext ?_ ?_ <;> funext i b <;> (try funext o) <;> simp only [List.getElem?_map] <;>
    by_cases h : i < n <;> simp [h]

theorem firstErr_none {ε V : Type*} (row : ℕ → Except ε V) (L : List ℕ) :
    firstErr row L = none ↔ ∀ i ∈ L, ∃ v, row i = .ok v := by
  rw [firstErr, List.findSome?_eq_none_iff]
  refine forall₂_congr fun i _ => ?_
  cases row i <;> simp

theorem rowsOut_ok {ε S : Type*} (e : Option ε) (a s : S) : rowsOut e a = .ok s ↔ e = none ∧ a = s := by
  cases e <;> simp [rowsOut]

/-- If the states on the mesh exist, those at k + q are the remapped ones. -/
theorem statesKq_ok (L : Lind) (q : Grid) (s : (ℕ → ℕ → ℝ) × Arr3 ℂ)
    (hs : statesSpec L.D L.numKpt L.kFrac 2 = .ok s) :
    ∃ s', statesKq L q = .ok s' ∧ ∀ i < L.numKpt,
      s'.1 i = s.1 ((buildKqMap L.mesh (buildKmeshGrid L.mesh) q).getD i 0).toNat ∧
      s'.2 i = s.2 ((buildKqMap L.mesh (buildKmeshGrid L.mesh) q).getD i 0).toNat := by
  rw [statesSpec_eq, rowsOut_ok] at hs
  obtain ⟨h0, rfl⟩ := hs
  have key : ∀ i < L.numKpt,
      ((buildKqMap L.mesh (buildKmeshGrid L.mesh) q).getD i 0).toNat < L.numKpt ∧
      L.kFrac ((buildKqMap L.mesh (buildKmeshGrid L.mesh) q).getD i 0).toNat =
        L.grid2frac (wrapSum L.mesh ((buildKmeshGrid L.mesh).getD i (0, 0, 0)) q) := by
    intro i hi
    have hg : (buildKmeshGrid L.mesh)[i]? = some (buildKmeshGrid L.mesh)[i] := List.getElem?_eq_getElem hi
    obtain ⟨_, h2⟩ := kmesh_kq L.mesh q _ (List.getElem_mem hi)
    have e : (buildKqMap L.mesh (buildKmeshGrid L.mesh) q).getD i 0 = kqIndex L.mesh q (buildKmeshGrid L.mesh)[i] := by
      rw [buildKqMap, List.getD_eq_getElem?_getD, List.getElem?_map, hg]
      rfl
    rw [e]
    refine ⟨?_, ?_⟩
    · exact (List.getElem?_eq_some_iff.1 h2).1
    · rw [Lind.kFrac, List.getD_eq_getElem?_getD, h2, List.getD_eq_getElem?_getD, hg]
      rfl
  rw [firstErr_none] at h0
  have hq := statesSpec_eq L.D L.numKpt
    (fun i => L.grid2frac (wrapSum L.mesh ((buildKmeshGrid L.mesh).getD i (0, 0, 0)) q)) 2
  rw [(firstErr_none _ _).2 (fun i hi => by
    obtain ⟨k1, k2⟩ := key i (List.mem_range.1 hi)
    rw [← k2]
    exact h0 _ (List.mem_range.2 k1))] at hq
  refine ⟨_, hq, fun i hi => ?_⟩
  obtain ⟨k1, k2⟩ := key i hi
  simp only [hi, k1, if_true, ← k2, and_self]

theorem lindhardSum_congr (L : Lind) (n : ℕ) (s s' t t' : (ℕ → ℕ → ℝ) × Arr3 ℂ) (q : Vec3 ℝ)
    (h : ∀ i < n, s.1 i = t.1 i ∧ s.2 i = t.2 i) (h' : ∀ i < n, s'.1 i = t'.1 i ∧ s'.2 i = t'.2 i) :
    lindhardSum L n s s' q = lindhardSum L n t t' q := by
  funext om
  unfold lindhardSum
  refine Finset.sum_congr rfl fun k hk => ?_
  have hk := Finset.mem_range.1 hk
  rw [(h k hk).1, (h k hk).2, (h' k hk).1, (h' k hk).2]

theorem map_eq_ok {ε A B : Type*} {x : Except ε A} {f : A → B} {b : B} (h : x.map f = .ok b) :
    ∃ a, x = .ok a ∧ f a = b := by
  cases x with
  | error e => cases h
  | ok a => exact ⟨a, rfl, by simpa [Except.map] using h⟩

theorem map_eq_error {ε A B : Type*} {x : Except ε A} {f : A → B} {e : ε} (h : x.map f = .error e) : x = .error e := by
  cases x with
  | error e' => simpa [Except.map] using h
  | ok a => cases h

theorem numKpt_pos (L : Lind) (h : 0 < L.numKpt) : 0 < L.mesh.1 ∧ 0 < L.mesh.2.1 ∧ 0 < L.mesh.2.2 := by
  rw [Lind.numKpt, kmesh_length] at h
  exact ⟨Nat.pos_of_mul_pos_right h |> fun _ => Nat.pos_of_ne_zero (by rintro e; simp [e] at h),
    Nat.pos_of_ne_zero (by rintro e; simp [e] at h), Nat.pos_of_ne_zero (by rintro e; simp [e] at h)⟩

/-- The table, with the row of q-point `iq` multiplied by a power of the number of processes. -/
noncomputable def scaleRows (P : ℕ) (Q : ℕ) (t : ℕ → ℕ → ℂ) : ℕ → ℕ → ℂ := fun iq iw => (P : ℂ) ^ (Q - 1 - iq) * t iq iw

theorem final_table (L : Lind) (P : ℕ) (s : (ℕ → ℕ → ℝ) × Arr3 ℂ) (rows : List (Vec3 ℝ × ((ℕ → ℕ → ℝ) × Arr3 ℂ)))
    (dp : ℕ → ℕ → ℂ)
    (h : dp = (rows.zipIdx).foldl (fun dp q => updRow L.omegas P
      ((fun p : Vec3 ℝ × ((ℕ → ℕ → ℝ) × Arr3 ℂ) => lindhardSum L L.numKpt s p.2 p.1) q.1) q.2 dp) 0) :
    (fun iq iw => dp iq iw * (lindhardFactor L : ℂ) / (L.ext : ℂ)) = scaleRows P rows.length (lindhardTable L s rows) := by
  funext iq iw
  rw [h, updRow_foldl L.omegas P (fun p : Vec3 ℝ × ((ℕ → ℕ → ℝ) × Arr3 ℂ) => lindhardSum L L.numKpt s p.2 p.1)]
  simp only [scaleRows, lindhardTable, Nat.zero_le, if_true, Nat.sub_zero, Nat.zero_add]
  cases rows[iq]? with
  | none => simp
  | some p =>
    obtain ⟨q, s'⟩ := p
    cases L.omegas[iw]? with
    | none => simp
    | some om => simp only; ring

theorem regular_run (L : Lind) (w : World) (buf : ℕ → Buf) (fortran : Bool) (qs : List Grid)
    (hd : L.dim = 2 ∨ L.dim = 3) (hn : w.size ≤ L.numKpt) (r : ℕ) (hr : r < w.size) :
    (L.dynPolRegular w buf fortran qs).map (fun d => d r) =
      (regSpec L qs).map (scaleRows w.size qs.length) := by
  have hb : L.regStep w fortran = L.regStep w false := by
    cases fortran
    · rfl
    · funext bs bd; exact regStep_backend L w bs bd
  by_cases hdet : L.lat.det = 0
  · simp [Lind.dynPolRegular, regSpec, Lind.frac2cart, genReciprocal, hdet, bind, Except.bind, Except.map]
  obtain ⟨qc, hqc, hlen⟩ : ∃ qc, L.frac2cart (qs.map L.grid2frac) = .ok qc ∧ qc.length = qs.length := by
    simp only [Lind.frac2cart, recip_some _ hdet]
    exact ⟨_, rfl, by simp [frac2cart]⟩
  have hst := fun r hr => states_spec L.D w buf L.numKpt L.kFrac 2 r hr
  cases hs : statesSpec L.D L.numKpt L.kFrac 2 with
  | error e =>
    have h0 := map_eq_error ((hst 0 w.pos).trans hs)
    simp [Lind.dynPolRegular, regSpec, hqc, hs, h0, bind, Except.bind, Except.map]
  | ok s =>
    obtain ⟨bs, hbs, _⟩ := map_eq_ok ((hst 0 w.pos).trans hs)
    have hbs' : ∀ r < w.size, bs r = s := by
      intro r hr
      obtain ⟨bs', h1, h2⟩ := map_eq_ok ((hst r hr).trans hs)
      rw [hbs] at h1
      cases h1
      exact h2
    choose! g hg1 hg2 using fun r hr => bound_mem w L.numKpt r hr hn
    obtain ⟨bd, hbd, hbd'⟩ := onRanks_ok w (fun r => distBound w L.numKpt r) g hg1
    have hbd2 : ∀ r < w.size, rangeElems (distRange w L.numKpt r) = List.range' (bd r).1 ((bd r).2 + 1 - (bd r).1) := by
      intro r hr
      rw [hbd' r hr]
      exact hg2 r hr
    choose sk hsk1 hsk2 using fun q => statesKq_ok L q s hs
    have hfac := factor_eq L hdet (numKpt_pos L (lt_of_lt_of_le w.pos hn)) hd
    have hss : qs.mapM (statesKq L) = .ok (qs.map sk) := mapM_ok _ _ _ (fun q _ => hsk1 q)
    simp only [Lind.dynPolRegular, regSpec, hqc, hs, hbs, hbd, hfac, hss, hb, bind, Except.bind, Except.map]
    congr 1
    have hfold : ∀ (Q : List (Grid × Vec3 ℝ)) (k : ℕ) (st : ℕ → Lind.Loc) (dp0 : ℕ → ℕ → ℂ),
        (∀ r < w.size, (st r).2.2 = dp0) → ∀ r < w.size,
        ((Q.zipIdx k).foldl (L.regStep w false bs bd) st r).2.2 =
          ((Q.map fun p => (p.2, sk p.1)).zipIdx k).foldl (fun dp q => updRow L.omegas w.size
            ((fun p : Vec3 ℝ × ((ℕ → ℕ → ℝ) × Arr3 ℂ) => lindhardSum L L.numKpt s p.2 p.1) q.1) q.2 dp) dp0 := by
      intro Q
      induction Q with
      | nil => intro k st dp0 h r hr; exact h r hr
      | cons p Q ih =>
        intro k st dp0 h r hr
        rw [List.zipIdx_cons, List.foldl_cons, List.map_cons, List.zipIdx_cons, List.foldl_cons]
        refine ih _ _ _ (fun r hr => ?_) r hr
        rw [regStep_row L w hn bd hbd2 bs s hbs' (p, k) _ (fun _ => rfl) st dp0 h r hr]
        rw [lindhardSum_congr L L.numKpt s _ s (sk p.1) p.2 (fun _ _ => ⟨rfl, rfl⟩)
          (fun i hi => ⟨(hsk2 p.1 i hi).1.symm, (hsk2 p.1 i hi).2.symm⟩)]
    have hrows : ((qs.zip qc).map fun p => (p.2, sk p.1)) = qc.zip (qs.map sk) := by
      rw [List.zip_map_right, ← List.zip_swap, List.map_map]
      rfl
    have := final_table L w.size s (qc.zip (qs.map sk)) _
      ((hfold (qs.zip qc) 0 (fun _ => (0, 0, 0)) 0 (fun _ _ => rfl) r hr).trans (by rw [hrows]))
    rw [this]
    congr 1
    simp [hlen]

theorem arbitrary_run (L : Lind) (w : World) (buf : ℕ → Buf) (fortran : Bool) (qs : List (Vec3 ℝ))
    (hd : L.dim = 2 ∨ L.dim = 3) (hn : w.size ≤ L.numKpt) (r : ℕ) (hr : r < w.size) :
    (L.dynPolArbitrary w buf fortran qs).map (fun d => d r) =
      (arbSpec L qs).map (scaleRows w.size qs.length) := by
  have hb : L.arbStep w buf fortran = L.arbStep w buf false := by
    cases fortran
    · rfl
    · funext bs bd; exact arbStep_backend L w buf bs bd
  by_cases hdet : L.lat.det = 0
  · simp [Lind.dynPolArbitrary, arbSpec, Lind.cart2frac, genReciprocal, hdet, bind, Except.bind, Except.map]
  cases hqf : L.cart2frac qs with
  | error e => simp [Lind.dynPolArbitrary, arbSpec, hqf, bind, Except.bind, Except.map]
  | ok qf =>
  have hlen : qf.length = qs.length := by
    simp only [Lind.cart2frac, recip_some _ hdet, cart2frac] at hqf
    split at hqf
    · cases hqf
    · rename_i hh
      split at hh
      · cases hh
      · cases hh
        cases hqf
        simp
  have hloc := fun kp r hr => C44_states_local L.D w buf L.numKpt kp 2 r hr
  have hcalc : ∀ kp, (∀ e, statesSpec L.D L.numKpt kp 2 = .error e → calcStates L.D w buf L.numKpt kp 2 false = .error e) ∧
      (∀ s, statesSpec L.D L.numKpt kp 2 = .ok s → ∃ bs, calcStates L.D w buf L.numKpt kp 2 false = .ok bs ∧
        ∀ r < w.size, ∀ i ∈ rangeElems (distRange w L.numKpt r), (bs r).1 i = s.1 i ∧ (bs r).2 i = s.2 i) := by
    intro kp
    refine ⟨fun e he => ?_, fun s hs => ?_⟩
    · have := hloc kp 0 w.pos
      rw [he] at this
      exact map_eq_error this
    · have h0 := hloc kp 0 w.pos
      rw [hs] at h0
      obtain ⟨bs, hbs, _⟩ := map_eq_ok h0
      refine ⟨bs, hbs, fun r hr i hi => ?_⟩
      have h1 := hloc kp r hr
      rw [hs, hbs] at h1
      simp only [Except.map, Except.ok.injEq] at h1
      rw [rangeElems, List.mem_range'_1] at hi
      have : (distRange w L.numKpt r).1 ≤ i ∧ i < (distRange w L.numKpt r).2 := by omega
      rw [h1]
      simp [this]
  cases hs : statesSpec L.D L.numKpt L.kFrac 2 with
  | error e =>
    have h0 := (hcalc L.kFrac).1 e hs
    simp [Lind.dynPolArbitrary, arbSpec, hqf, hs, h0, bind, Except.bind, Except.map]
  | ok s =>
    obtain ⟨bs, hbs, hbs'⟩ := (hcalc L.kFrac).2 s hs
    choose! g hg1 hg2 using fun r hr => bound_mem w L.numKpt r hr hn
    obtain ⟨bd, hbd, hbd'⟩ := onRanks_ok w (fun r => distBound w L.numKpt r) g hg1
    have hbd2 : ∀ r < w.size, rangeElems (distRange w L.numKpt r) = List.range' (bd r).1 ((bd r).2 + 1 - (bd r).1) := by
      intro r hr
      rw [hbd' r hr]
      exact hg2 r hr
    have hfac := factor_eq L hdet (numKpt_pos L (lt_of_lt_of_le w.pos hn)) hd
    have hfold : ∀ (qs qf : List (Vec3 ℝ)) (k : ℕ) (st : ℕ → Lind.Loc) (dp0 : ℕ → ℕ → ℂ), qf.length = qs.length →
        (∀ r < w.size, (st r).2.2 = dp0) →
        match qf.mapM (fun q => statesSpec L.D L.numKpt (fun i => L.kFrac i + q) 2) with
        | .error e => ((qs.zip qf).zipIdx k).foldlM (L.arbStep w buf false bs bd) st = .error e
        | .ok ss => ∃ st', ((qs.zip qf).zipIdx k).foldlM (L.arbStep w buf false bs bd) st = .ok st' ∧ ss.length = qs.length ∧
          ∀ r < w.size, (st' r).2.2 = ((qs.zip ss).zipIdx k).foldl (fun dp q => updRow L.omegas w.size
            ((fun p : Vec3 ℝ × ((ℕ → ℕ → ℝ) × Arr3 ℂ) => lindhardSum L L.numKpt s p.2 p.1) q.1) q.2 dp) dp0 := by
      intro qs
      induction qs with
      | nil =>
        intro qf k st dp0 hl h
        obtain rfl := List.length_eq_zero_iff.1 hl
        exact ⟨st, rfl, rfl, h⟩
      | cons q qs ih =>
        intro qf k st dp0 hl h
        cases qf with
        | nil => simp at hl
        | cons f qf =>
        rw [List.mapM_cons, List.zip_cons_cons, List.zipIdx_cons, List.foldlM_cons]
        cases h1 : statesSpec L.D L.numKpt (fun i => L.kFrac i + f) 2 with
        | error e =>
          simp [Lind.arbStep, (hcalc _).1 e h1, bind, Except.bind]
        | ok s' =>
          obtain ⟨bq, hbq, hbq'⟩ := (hcalc _).2 s' h1
          obtain ⟨st', hst1, hst2⟩ := arbStep_row L w hn bd hbd2 bs bq s s' hbs' buf ((q, f), k) hbq hbq' st dp0 h
          have := ih qf (k + 1) st' _ (by simpa using hl) hst2
          simp only [bind, Except.bind, hst1, pure, Except.pure]
          cases h2 : qf.mapM (fun q => statesSpec L.D L.numKpt (fun i => L.kFrac i + q) 2) with
          | error e =>
            rw [h2] at this
            exact this
          | ok ss =>
            rw [h2] at this
            obtain ⟨st'', h3, h4, h5⟩ := this
            exact ⟨st'', h3, by simp [h4], fun r hr => by rw [h5 r hr]; rfl⟩
    have hrun := hfold qs qf 0 (fun _ => (0, 0, 0)) 0 hlen (fun _ _ => rfl)
    cases hss : qf.mapM (fun q => statesSpec L.D L.numKpt (fun i => L.kFrac i + q) 2) with
    | error e =>
      rw [hss] at hrun
      simp only at hrun
      simp [Lind.dynPolArbitrary, arbSpec, hqf, hs, hbs, hbd, hss, hb, hrun, bind, Except.bind, Except.map]
    | ok ss =>
      rw [hss] at hrun
      obtain ⟨st', h1, h2, h3⟩ := hrun
      simp only [Lind.dynPolArbitrary, arbSpec, hqf, hs, hbs, hbd, hfac, hss, hb, h1, bind, Except.bind, Except.map]
      congr 1
      have := final_table L w.size s (qs.zip ss) _ (h3 r hr)
      rw [this]
      congr 1
      simp [h2]

end Verif

import Verif.Proof.Mpi
import Verif.Props.Parallel

/-! # C138: parallel runs end, and their results do not depend on timing -/

namespace Verif.Mpi

/-- The master. -/
abbrev World.root (w : World) : Fin w.size := ⟨0, w.pos⟩

variable {V E α β : Type} [AddCommMonoid V] {w : World}

/-- Without visible actions. -/
abbrev quiet : Fin w.size → List Act := fun _ => []

/-! ## In general -/

/-- C138: if the programs of the processes fit together - there is a sequence of collective operations all of them follow - then every run ends
with the results of lockstep, whatever the processes' speeds and the implementation of MPI. -/
theorem C138_run {R : Type} [Fintype R] [DecidableEq R] {root : R} {p : R → Proc V E α} {a : R → α} {o : R → List Act} (h : Lockstep root p a o) :
    Delivers root p a o := lockstep_delivers h

/-- C138: a script whose calls return the same on all processes may decide on the results so far what to do next: the run ends, all processes
have the same result, and what is on the screen and in the files is that of the master alone and does not depend on timing. -/
theorem C138_script {R : Type} [Fintype R] [DecidableEq R] {root : R} {sc : Script R V E α} {x : α} {out : List Act} (h : sc.Sound root x out) :
    Delivers root (fun r => sc.proc r) (fun _ => x) (fun r => if r = root then out else []) := lockstep_delivers (script_lockstep h)

/-- C138: if a process raises an exception before a collective operation, every process which comes to this operation and needs its data
waits for ever. -/
theorem C138_hang {R : Type} [Fintype R] [DecidableEq R] {root : R} {p : R → Proc V E α} {q r : R} {m : ℕ} (hq : Fails m (p q))
    (hr : Needs root q m (p r)) : Hangs root p r := hang hq hr

/-! ## MPIEnv -/

theorem mpiSum_fin {A : Type*} [AddCommMonoid A] (P : ℕ) (x : ℕ → A) : ∑ q : Fin P, x q = mpiSum P x := by
  rw [Finset.sum_fin_eq_sum_range, mpiSum, ← List.sum_toFinset _ List.nodup_range, List.toFinset_range]
  refine Finset.sum_congr rfl fun i hi => ?_
  rw [dif_pos (Finset.mem_range.1 hi)]

theorem lock_allReduce {A : Type} [AddCommMonoid A] [Payload A V] (x : ℕ → A) :
    Lockstep (V := V) (E := E) (World.root w) (fun r => pAllReduce w (x r)) (fun r => allReduce w x r) quiet := by
  unfold pAllReduce allReduce
  split_ifs with hm
  · refine ⟨[(.allReduce, fun r => Payload.enc (x r))], fun r => ?_⟩
    have := Follows.coll (root := World.root w) (r := r) (rs := []) (c := .allReduce) (x := fun r : Fin w.size => (Payload.enc (x r) : V))
      (k := fun v => Proc.ret (E := E) (Payload.dec v : A)) (.ret _)
    simp only [combine, map_sum, Payload.dec_enc, mpiSum_fin] at this
    exact this
  · exact lockstep_ret _

theorem lock_allAverage {A : Type} [AddCommMonoid A] [Module ℂ A] [Payload A V] (x : ℕ → A) :
    Lockstep (V := V) (E := E) (World.root w) (fun r => pAllAverage w (x r)) (fun r => allAverage (K := ℂ) w x r) quiet := by
  unfold pAllAverage allAverage
  split_ifs with hm
  · refine ⟨[(.allReduce, fun r => Payload.enc (x r))], fun r => ?_⟩
    have := Follows.coll (root := World.root w) (r := r) (rs := []) (c := .allReduce) (x := fun r : Fin w.size => (Payload.enc (x r) : V))
      (k := fun v => Proc.ret (E := E) ((w.size : ℂ)⁻¹ • (Payload.dec v : A))) (.ret _)
    simp only [combine, map_sum, Payload.dec_enc, mpiSum_fin] at this
    exact this
  · exact lockstep_ret _

theorem lock_bcast {A : Type} [AddCommMonoid A] [Payload A V] (x : ℕ → A) :
    Lockstep (V := V) (E := E) (World.root w) (fun r => pBcast w (x r)) (fun r => bcast w x r) quiet := by
  unfold pBcast bcast
  split_ifs with hm
  · refine ⟨[(.bcast, fun r => Payload.enc (x r))], fun r => ?_⟩
    have := Follows.coll (root := World.root w) (r := r) (rs := []) (c := .bcast) (x := fun r : Fin w.size => (Payload.enc (x r) : V))
      (k := fun v => Proc.ret (E := E) (Payload.dec v : A)) (.ret _)
    simp only [combine, Payload.dec_enc] at this
    exact this
  · exact lockstep_ret _

theorem lock_barrier : Lockstep (V := V) (E := E) (World.root w) (fun _ => pBarrier w) (fun _ => ()) quiet := by
  unfold pBarrier
  split_ifs with hm
  · exact ⟨[(.barrier, fun _ => 0)], fun r => .coll (x := fun _ => 0) (.ret _)⟩
  · exact lockstep_ret _

theorem lock_master (a : Act) : Lockstep (V := V) (E := E) (World.root w) (fun r => onMaster r a) (fun _ => ())
    (fun r => if r = World.root w then [a] else []) := by
  refine ⟨[], fun r => ?_⟩
  unfold onMaster
  by_cases h : r = World.root w
  · subst h
    simp only [if_true]
    exact .act (.ret _)
  · have : (r : ℕ) ≠ 0 := fun e => h (Fin.ext e)
    simp only [if_neg h, if_neg this]
    exact .ret _

theorem onRanks_get {A ε : Type} [Inhabited A] {f : ℕ → Except ε A} {st : ℕ → A} (h : onRanks w f = .ok st) (r : ℕ) (hr : r < w.size) :
    f r = .ok (st r) := by
  unfold onRanks at h
  have key : ∀ (l : List ℕ) (v : List A), l.mapM f = .ok v → ∀ i (hi : i < l.length), f l[i] = .ok (v.getD i default) := by
    intro l
    induction l with
    | nil => intro v _ i hi; simp at hi
    | cons a l ih =>
      intro v hv i hi
      rw [List.mapM_cons] at hv
      cases ha : f a with
      | error e => rw [ha] at hv; cases hv
      | ok x =>
        cases hl : l.mapM f with
        | error e => rw [ha, hl] at hv; cases hv
        | ok xs =>
          rw [ha, hl] at hv
          obtain rfl := Except.ok.inj hv
          cases i with
          | zero => simpa using ha
          | succ i => simpa using ih xs hl i (by simpa using hi)
  cases hl : (List.range w.size).mapM f with
  | error e => rw [hl] at h; cases h
  | ok v =>
    rw [hl] at h
    obtain rfl := Except.ok.inj h
    have := key _ v hl r (by simpa using hr)
    rw [List.getElem_range] at this
    exact this

theorem lock_lift {A ε : Type} [Inhabited A] {f : ℕ → Except ε A} {st : ℕ → A} (h : onRanks w f = .ok st) :
    Lockstep (V := V) (World.root w) (fun r => lift (f r)) (fun r => st r) quiet := by
  refine ⟨[], fun r => ?_⟩
  simp only [onRanks_get h r r.2]
  exact .ret _

theorem lock_const {A ε : Type} {f : Except ε A} {x : A} (h : f = .ok x) :
    Lockstep (V := V) (World.root w) (fun _ => lift f) (fun _ => x) quiet := by
  subst h
  exact lockstep_ret _

theorem lock_foldlM {S Q ε : Type} {g : Fin w.size → S → Q → Proc V ε S} {F : (ℕ → S) → Q → Except ε (ℕ → S)}
    (h : ∀ st q st', F st q = .ok st' → Lockstep (World.root w) (fun r => g r (st r) q) (fun r => st' r) quiet) (qs : List Q) (st res : ℕ → S)
    (hr : qs.foldlM F st = .ok res) : Lockstep (World.root w) (fun r => qs.foldlM (g r) (st r)) (fun r => res r) quiet := by
  induction qs generalizing st with
  | nil =>
    obtain rfl := Except.ok.inj hr
    exact lockstep_ret _
  | cons q qs ih =>
    rw [List.foldlM_cons] at hr
    cases hf : F st q with
    | error e => rw [hf] at hr; cases hr
    | ok st' =>
      rw [hf] at hr
      exact lockstep_bind' (h st q st' hf) (ih st' hr)

theorem except_bind {ε : Type*} {A B : Type} {x : Except ε A} {f : A → Except ε B} {b : B} (h : (x >>= f) = .ok b) : ∃ a, x = .ok a ∧ f a = .ok b := by
  cases x with
  | error e => cases h
  | ok a => exact ⟨a, rfl, h⟩

/-! ## Diagonalisation -/

section Diag

variable [Payload (ℕ → ℕ → ℝ) V]

theorem lock_states [Payload (ℕ → ℕ → ℕ → ℂ) V] {D : Diag} {buf : ℕ → Buf} {n : ℕ} {kpts : ℕ → Vec3 ℝ} {conv : ℤ} {allRed : Bool}
    {res : ℕ → (ℕ → ℕ → ℝ) × (ℕ → ℕ → ℕ → ℂ)} (h : calcStates D w buf n kpts conv allRed = .ok res) :
    Lockstep (V := V) (World.root w) (fun r => statesProc D w (buf r) n kpts conv allRed r) (fun r => res r) quiet := by
  unfold calcStates at h
  cases hr : (onRanks w fun r => (rangeElems (distRange w n r)).foldlM (statesStep D kpts conv) ((buf r, 0, 0) : StSt)) with
  | error e => rw [hr] at h; cases h
  | ok st =>
    rw [hr] at h
    obtain rfl := Except.ok.inj h
    unfold statesProc
    refine lockstep_bind' (lock_lift hr) ?_
    cases allRed with
    | false => exact lockstep_ret _
    | true => exact lockstep_bind' (lock_allReduce fun r => (st r).2.1) (lockstep_bind' (lock_allReduce fun r => (st r).2.2) (lockstep_ret _))

theorem lock_bands {D : Diag} {buf : ℕ → Buf} {n : ℕ} {kpts : ℕ → Vec3 ℝ} {conv : ℤ} {orbs : Option (List ℕ)}
    {res : ℕ → (ℕ → ℕ → ℝ) × (ℕ → ℕ → ℝ)} (h : calcBands D w buf n kpts conv orbs = .ok res) :
    Lockstep (V := V) (World.root w) (fun r => bandsProc D w (buf r) n kpts conv orbs r) (fun r => res r) quiet := by
  unfold calcBands at h
  unfold bandsProc
  cases orbs with
  | none =>
    cases hr : (onRanks w fun r => (rangeElems (distRange w n r)).foldlM (bandsStep D kpts conv none)
        ((buf r, 0, fun _ _ => 1) : StBd)) with
    | error e => simp only [hr] at h; cases h
    | ok st =>
      simp only [hr] at h
      obtain rfl := Except.ok.inj h
      exact lockstep_bind' (lock_lift hr) (lockstep_bind' (lock_allReduce fun r => (st r).2.1) (lockstep_ret _))
  | some os =>
    cases hr : (onRanks w fun r => (rangeElems (distRange w n r)).foldlM (bandsStep D kpts conv (some os)) ((buf r, 0, 0) : StBd)) with
    | error e => simp only [hr] at h; cases h
    | ok st =>
      simp only [hr] at h
      obtain rfl := Except.ok.inj h
      exact lockstep_bind' (lock_lift hr) (lockstep_bind' (lock_allReduce fun r => (st r).2.1)
        (lockstep_bind' (lock_allReduce fun r => (st r).2.2) (lockstep_ret _)))

/-- C138: energies and wave functions. -/
theorem C138_states [Payload (ℕ → ℕ → ℕ → ℂ) V] {D : Diag} {buf : ℕ → Buf} {n : ℕ} {kpts : ℕ → Vec3 ℝ} {conv : ℤ} {allRed : Bool}
    {res : ℕ → (ℕ → ℕ → ℝ) × (ℕ → ℕ → ℕ → ℂ)} (h : calcStates D w buf n kpts conv allRed = .ok res) :
    Delivers (V := V) (World.root w) (fun r => statesProc D w (buf r) n kpts conv allRed r) (fun r => res r) quiet :=
  lockstep_delivers (lock_states h)

/-- C138: bands and projections. -/
theorem C138_bands {D : Diag} {buf : ℕ → Buf} {n : ℕ} {kpts : ℕ → Vec3 ℝ} {conv : ℤ} {orbs : Option (List ℕ)}
    {res : ℕ → (ℕ → ℕ → ℝ) × (ℕ → ℕ → ℝ)} (h : calcBands D w buf n kpts conv orbs = .ok res) :
    Delivers (V := V) (World.root w) (fun r => bandsProc D w (buf r) n kpts conv orbs r) (fun r => res r) quiet :=
  lockstep_delivers (lock_bands h)

/-- C138: density of states. -/
theorem C138_dos [Payload (ℕ → ℝ) V] {D : Diag} {buf : ℕ → Buf} {n : ℕ} {kpts : ℕ → Vec3 ℝ} {conv : ℤ} {orbs : Option (List ℕ)}
    {emin emax : Option ℝ} {step sigma : ℝ} {basis : ℝ → ℝ → ℝ → ℝ} {gs : ℝ} {res : ℕ → List ℝ × (ℕ → ℝ)}
    (h : calcDos D w buf n kpts conv orbs emin emax step sigma basis gs = .ok res) :
    Delivers (V := V) (World.root w) (fun r => dosProc D w (buf r) n kpts conv orbs emin emax step sigma basis gs r) (fun r => res r) quiet := by
  refine lockstep_delivers ?_
  unfold calcDos at h
  obtain ⟨bd, hb, h⟩ := except_bind h
  obtain ⟨grid, hg, h⟩ := except_bind h
  obtain rfl := Except.ok.inj h
  unfold dosProc
  exact lockstep_bind' (lock_bands hb) (lockstep_bind' (lock_lift (st := grid) hg) (lockstep_bind' (lock_allReduce fun r =>
    (rangeElems (distRange w n r)).foldl (fun dos ik => (List.range D.nb).foldl (fun dos ib =>
      dos + fun x => basis ((grid r).getD x 0) ((bd r).1 ik ib) sigma * (bd r).2 ik ib) dos) 0) (lockstep_ret _)))

/-- C138: phases of the Wilson loops. -/
theorem C138_phases {D : Diag} {nocc : ℕ} {geev : Matrix (Fin nocc) (Fin nocc) ℂ → List ℂ} {buf : ℕ → Buf} {ka : List ℝ} {n : ℕ} {kb : ℕ → ℝ}
    {kc : ℝ} {res : ℕ → ℕ → ℕ → ℝ} (h : Z2.calcPhases D nocc geev w buf ka n kb kc = .ok res) :
    Delivers (V := V) (World.root w) (fun r => phasesProc D nocc geev w (buf r) ka n kb kc r) (fun r => res r) quiet := by
  refine lockstep_delivers ?_
  unfold Z2.calcPhases at h
  cases hr : (onRanks w fun r => (rangeElems (distRange w n r)).foldlM (Z2.phasesStep D nocc geev ka kb kc)
      ((buf r, 0) : Buf × (ℕ → ℕ → ℝ))) with
  | error e => rw [hr] at h; cases h
  | ok st =>
    rw [hr] at h
    obtain rfl := Except.ok.inj h
    exact lockstep_bind' (lock_lift hr) (lock_allReduce fun r => (st r).2)

/-! ## Response functions -/

variable [Payload (ℕ → ℕ → ℕ → ℂ) V]

/-- C138: AC conductivity. -/
theorem C138_ac_partial [Payload (ℕ → ℂ) V] {L : Lind} {buf : ℕ → Buf} {fortran : Bool} {pos : ℤ → Vec3 ℝ} {hops : List (Cell × Pair × ℂ)}
    {comp : Option (Fin 3 × Fin 3)} {res : ℕ → ℕ → ℂ} (h : L.acCond w buf fortran pos hops comp = .ok res) :
    Delivers (V := V) (World.root w) (fun r => acProc L w (buf r) fortran pos hops comp r) (fun r => res r) quiet := by
  refine lockstep_delivers ?_
  unfold Lind.acCond at h
  obtain ⟨km, hkm, h⟩ := except_bind h
  cases comp with
  | none => cases h
  | some c =>
  obtain ⟨bs, hbs, h⟩ := except_bind (x := calcStates L.D w buf L.numKpt L.kFrac 1 false) h
  obtain ⟨bd, hbd, h⟩ := except_bind h
  obtain rfl := Except.ok.inj h
  unfold acProc
  exact lockstep_bind' (lock_const hkm) (lockstep_bind' (lock_const (x := c) rfl) (lockstep_bind' (lock_states hbs) (lockstep_bind' (lock_lift hbd)
    (lockstep_bind' (lock_allReduce fun r => L.acLocal fortran (bs r) (acHops L.lat pos hops) (fun i => km.getD i 0) c (bd r))
      (lockstep_ret _)))))

/-- C138: dynamical polarization, q-points of the mesh. -/
theorem C138_dyn_regular_partial [Payload (ℕ → ℕ → ℕ → ℝ) V] [Payload (ℕ → ℕ → ℂ) V] {L : Lind} {buf : ℕ → Buf} {fortran : Bool} {qs : List Grid}
    {res : ℕ → ℕ → ℕ → ℂ} (h : L.dynPolRegular w buf fortran qs = .ok res) :
    Delivers (V := V) (World.root w) (fun r => dynRegProc L w (buf r) fortran qs r) (fun r => res r) quiet := by
  refine lockstep_delivers ?_
  unfold Lind.dynPolRegular at h
  obtain ⟨qc, hqc, h⟩ := except_bind h
  obtain ⟨bs, hbs, h⟩ := except_bind h
  obtain ⟨bd, hbd, h⟩ := except_bind h
  obtain ⟨fac, hfac, h⟩ := except_bind h
  obtain rfl := Except.ok.inj h
  unfold dynRegProc
  refine lockstep_bind' (lock_const hqc) (lockstep_bind' (lock_states hbs) (lockstep_bind' (lock_lift hbd) ?_))
  refine lockstep_bind' (a := fun r : Fin w.size => (((qs.zip qc).zipIdx).foldl (L.regStep w fortran bs bd) (fun _ => (0, 0, 0)) r : Lind.Loc)) ?_
    (lockstep_bind' (lock_const hfac) (lockstep_ret _))
  refine lock_foldlM (F := fun st q => .ok (L.regStep w fortran bs bd st q)) (fun st q st' hst => ?_) ((qs.zip qc).zipIdx) (fun _ => (0, 0, 0)) _ ?_
  · obtain rfl := Except.ok.inj hst
    unfold regProc
    let pr : ℕ → Arr3 ℝ × Arr3 ℂ := fun r => L.callProdDp fortran (bs r) (buildKqMap L.mesh (buildKmeshGrid L.mesh) q.1.1) q.1.2 (bd r)
      (fun i j l => (st r).1 i j l * 0, fun i j l => (st r).2.1 i j l * 0)
    exact lockstep_bind' (lock_allReduce (A := ℕ → ℕ → ℕ → ℝ) fun r => (pr r).1)
      (lockstep_bind' (lock_allReduce (A := ℕ → ℕ → ℕ → ℂ) fun r => (pr r).2)
      (lockstep_bind' (lock_allReduce fun r => L.callDynPol fortran (allReduce w (fun r => (pr r).1) r) (allReduce w (fun r => (pr r).2) r)
        (bd r) q.2 (st r).2.2) (lockstep_ret _)))
  · generalize (qs.zip qc).zipIdx = l
    generalize (fun _ => (0, 0, 0) : ℕ → Lind.Loc) = s0
    induction l generalizing s0 with
    | nil => rfl
    | cons q l ih => rw [List.foldlM_cons, List.foldl_cons]; exact ih _

/-- C138: dynamical polarization, arbitrary q-points. -/
theorem C138_dyn_arbitrary_partial [Payload (ℕ → ℕ → ℂ) V] {L : Lind} {buf : ℕ → Buf} {fortran : Bool} {qs : List (Vec3 ℝ)}
    {res : ℕ → ℕ → ℕ → ℂ} (h : L.dynPolArbitrary w buf fortran qs = .ok res) :
    Delivers (V := V) (World.root w) (fun r => dynArbProc L w (buf r) fortran qs r) (fun r => res r) quiet := by
  refine lockstep_delivers ?_
  unfold Lind.dynPolArbitrary at h
  obtain ⟨qf, hqf, h⟩ := except_bind h
  obtain ⟨bs, hbs, h⟩ := except_bind h
  obtain ⟨bd, hbd, h⟩ := except_bind h
  obtain ⟨st, hst, h⟩ := except_bind h
  obtain ⟨fac, hfac, h⟩ := except_bind h
  obtain rfl := Except.ok.inj h
  unfold dynArbProc
  refine lockstep_bind' (lock_const hqf) (lockstep_bind' (lock_states hbs) (lockstep_bind' (lock_lift hbd) (lockstep_bind' ?_
    (lockstep_bind' (lock_const hfac) (lockstep_ret _)))))
  refine lock_foldlM (F := L.arbStep w buf fortran bs bd) (fun st q st' hst => ?_) ((qs.zip qf).zipIdx) (fun _ => (0, 0, 0)) _ hst
  unfold Lind.arbStep at hst
  unfold arbProc
  cases hq : calcStates L.D w buf L.numKpt (fun i => L.kFrac i + q.1.2) 2 false with
  | error e => rw [hq] at hst; cases hst
  | ok bq =>
    rw [hq] at hst
    obtain rfl := Except.ok.inj hst
    let pr : ℕ → Arr3 ℝ × Arr3 ℂ := fun r => L.callProdDpArb fortran (bs r) (bq r) q.1.1 (bd r)
      (fun i j l => (st r).1 i j l * 0, fun i j l => (st r).2.1 i j l * 0)
    exact lockstep_bind' (lock_states hq) (lockstep_bind'
      (lock_allReduce fun r => L.callDynPol fortran (pr r).1 (pr r).2 (bd r) q.2 (st r).2.2) (lockstep_ret _))

end Diag

/-! ## TBPM -/

section Tbpm

variable {ε : Type}

theorem lock_out {p : Fin w.size → Proc V ε α} {a : Fin w.size → α} {o o' : Fin w.size → List Act} (h : Lockstep (World.root w) p a o) (e : o = o') :
    Lockstep (World.root w) p a o' := e ▸ h

theorem lock_opt (f : String → Act) (s : Option String) : Lockstep (V := V) (E := ε) (World.root w) (fun r => onMasterOpt r f s) (fun _ => ())
    (fun r => if r = World.root w then (s.map f).toList else []) := by
  cases s with
  | none => exact lock_out (lockstep_ret _) (by funext r; simp)
  | some s => exact lock_master _

theorem lock_masterOr {A : Type} (v x : A) : Lockstep (V := V) (E := ε) (World.root w) (fun r => masterOr r (.ok v) x)
    (fun r => if (r : ℕ) = 0 then v else x) quiet := by
  refine ⟨[], fun r => ?_⟩
  unfold masterOr
  by_cases hr : (r : ℕ) = 0 <;> simp only [hr, if_true, if_false] <;> exact .ret _

/-- What the master prints and saves in a calculation. -/
def corrOut (echo file : Option String) : List Act := (echo.map Act.print).toList ++ (file.map Act.save).toList

theorem lock_corr {A : Type} [AddCommMonoid A] [Module ℂ A] [Payload A V] [Inhabited A] {echo file : Option String} {loc : ℕ → Except ε A} {c : ℕ → A}
    (h : onRanks w loc = .ok c) : Lockstep (V := V) (World.root w) (fun r => corrProc w echo loc file r) (fun r => allAverage (K := ℂ) w c r)
      (fun r => if r = World.root w then corrOut echo file else []) := by
  have h3 := lockstep_bind (V := V) (E := ε) (lock_opt .print echo) (f := fun (r : Fin w.size) _ => (lift (loc r)).bind fun (x : A) => (pAllAverage w x).bind fun c =>
    (onMasterOpt r .save file).bind fun _ => .ret c) (lockstep_bind (lock_lift h)
    (f := fun (r : Fin w.size) (x : A) => (pAllAverage w x).bind fun c => (onMasterOpt r .save file).bind fun _ => .ret c)
    (lockstep_bind (lock_allAverage c) (f := fun (r : Fin w.size) c => (onMasterOpt r .save file).bind fun _ => .ret c)
    (lockstep_bind (lock_opt .save file) (f := fun (r : Fin w.size) _ => .ret (allAverage (K := ℂ) w c r)) (lockstep_ret _))))
  refine lock_out h3 ?_
  funext r
  by_cases hr : r = World.root w <;> simp [hr, corrOut]

/-- C138: the calculations with random states give the averages over all processes, and only the master prints and saves. -/
theorem C138_corr {A : Type} [AddCommMonoid A] [Module ℂ A] [Payload A V] [Inhabited A] {echo file : Option String} {loc : ℕ → Except ε A} {c : ℕ → A}
    (h : onRanks w loc = .ok c) : Delivers (V := V) (World.root w) (fun r => corrProc w echo loc file r) (fun r => allAverage (K := ℂ) w c r)
      (fun r => if r = World.root w then (echo.map Act.print).toList ++ (file.map Act.save).toList else []) :=
  lockstep_delivers (lock_corr h)

/-- C138: in particular the correlation function of the DOS. -/
theorem C138_corr_dos [Payload (ℕ → ℂ) V] {n : ℕ} {e : Tbpm.Env n} {rnd : ℤ → Tbpm.CVec n} {seed chk : ℤ} {thr : ℝ} {nt nsamp : ℕ}
    {res : ℕ → ℕ → ℂ} (h : Tbpm.calcCorrDos w e rnd seed chk thr nt nsamp = .ok res) (echo file : String) :
    Delivers (V := V) (World.root w) (fun r => corrProc w (some echo)
      (fun r => Tbpm.tbpmDos e rnd seed chk thr nt (distSample w nsamp).2 r) (some file) r) (fun r => res r)
      (fun r => if r = World.root w then [.print echo, .save file] else []) := by
  unfold Tbpm.calcCorrDos at h
  obtain ⟨c, hc, h⟩ := except_bind h
  obtain rfl := Except.ok.inj h
  exact C138_corr hc

theorem lock_masterBcast {A : Type} [AddCommMonoid A] [Payload A V] {f : Except ε A} {v : A} (h : f = .ok v) :
    Lockstep (V := V) (World.root w) (fun r => masterProc w f r) (fun _ => v) quiet := by
  subst h
  unfold masterProc
  have := lockstep_bind' (lock_masterOr (V := V) (ε := ε) (w := w) v 0) (f := fun _ x => pBcast w x) (lock_bcast fun r => if r = 0 then v else 0)
  have e : (fun r : Fin w.size => bcast w (fun r => if r = 0 then v else 0) r) = fun _ => v := by
    funext r
    unfold bcast
    split_ifs with hm
    · rfl
    · have := w.serial (by simpa using hm)
      have : (r : ℕ) = 0 := by omega
      simp [this]
  rw [e] at this
  exact this

/-- C138: the functions of the analyzer give the master's result on all processes. -/
theorem C138_analysis_partial {A : Type} [AddCommMonoid A] [Payload A V] {f : Except ε A} {v : A} (h : f = .ok v) :
    Delivers (V := V) (World.root w) (fun r => masterProc w f r) (fun _ => v) quiet := lockstep_delivers (lock_masterBcast h)

theorem lock_lines (lines : List String) : Lockstep (V := V) (E := ε) (World.root w) (fun r => lines.forM fun s => onMaster r (.print s)) (fun _ => ())
    (fun r => if r = World.root w then lines.map .print else []) := by
  induction lines with
  | nil => exact lock_out (lockstep_ret _) (by funext r; simp)
  | cons s lines ih =>
    refine lock_out (lockstep_bind (f := fun (r : Fin w.size) _ => lines.forM fun s => onMaster r (.print s)) (lock_master (.print s)) ih) ?_
    funext r
    by_cases hr : r = World.root w <;> simp [hr]

theorem lock_output (lines : List String) (file : String) : Lockstep (V := V) (World.root w)
    (fun r => outputProc (E := ε) w (.ok ()) lines file r) (fun _ => ()) (fun r => if r = World.root w then lines.map .print ++ [.save file] else []) := by
  unfold outputProc
  refine lock_out (lockstep_bind (lock_masterOr () ()) (f := fun (r : Fin w.size) _ => (pBarrier w).bind fun _ =>
    (lines.forM fun s => onMaster r (.print s)).bind fun _ => onMaster r (.save file))
    (lockstep_bind (f := fun (r : Fin w.size) _ => (lines.forM fun s => onMaster r (.print s)).bind fun _ => onMaster r (.save file)) lock_barrier
    (lockstep_bind (f := fun (r : Fin w.size) _ => onMaster r (.save file)) (lock_lines lines) (lock_master (.save file))))) ?_
  funext r
  by_cases hr : r = World.root w <;> simp [hr]

/-- C138: setting up the output: the directory is there before any process goes on, and only the master prints and saves. -/
theorem C138_output_partial {lines : List String} {file : String} : Delivers (V := V) (World.root w)
    (fun r => outputProc (E := ε) w (.ok ()) lines file r) (fun _ => ()) (fun r => if r = World.root w then lines.map .print ++ [.save file] else []) :=
  lockstep_delivers (lock_output lines file)

/-- C138: the correlation functions of the DC conductivity. -/
theorem C138_corr_dc {A B : Type} [AddCommMonoid A] [Module ℂ A] [Payload A V] [Inhabited A] [AddCommMonoid B] [Module ℂ B] [Payload B V] [Inhabited B]
    {loc : ℕ → Except ε (A × B)} {c : ℕ → A × B} (h : onRanks w loc = .ok c) (echo fileA fileB : String) :
    Delivers (V := V) (World.root w) (fun r => corrDcProc w echo loc fileA fileB r)
      (fun r => (allAverage (K := ℂ) w (fun r => (c r).1) r, allAverage (K := ℂ) w (fun r => (c r).2) r))
      (fun r => if r = World.root w then [.print echo, .save fileA, .save fileB] else []) := by
  refine lockstep_delivers ?_
  have h3 := lockstep_bind (V := V) (E := ε) (lock_master (.print echo)) (f := fun (r : Fin w.size) _ => (lift (loc r)).bind fun (x : A × B) =>
    (pAllAverage w x.1).bind fun a => (pAllAverage w x.2).bind fun b => (onMaster r (.save fileA)).bind fun _ =>
    (onMaster r (.save fileB)).bind fun _ => .ret (a, b)) (lockstep_bind (lock_lift h)
    (f := fun (r : Fin w.size) (x : A × B) => (pAllAverage w x.1).bind fun a => (pAllAverage w x.2).bind fun b =>
      (onMaster r (.save fileA)).bind fun _ => (onMaster r (.save fileB)).bind fun _ => .ret (a, b))
    (lockstep_bind (lock_allAverage fun r => (c r).1) (f := fun (r : Fin w.size) a => (pAllAverage w (c r).2).bind fun b =>
      (onMaster r (.save fileA)).bind fun _ => (onMaster r (.save fileB)).bind fun _ => .ret (a, b))
    (lockstep_bind (lock_allAverage fun r => (c r).2) (f := fun (r : Fin w.size) b =>
      (onMaster r (.save fileA)).bind fun _ => (onMaster r (.save fileB)).bind fun _ => .ret (allAverage (K := ℂ) w (fun r => (c r).1) r, b))
    (lockstep_bind (lock_master (.save fileA)) (f := fun (r : Fin w.size) _ => (onMaster r (.save fileB)).bind fun _ =>
      .ret (allAverage (K := ℂ) w (fun r => (c r).1) r, allAverage (K := ℂ) w (fun r => (c r).2) r))
    (lockstep_bind (lock_master (.save fileB)) (f := fun (r : Fin w.size) _ =>
      .ret (allAverage (K := ℂ) w (fun r => (c r).1) r, allAverage (K := ℂ) w (fun r => (c r).2) r)) (lockstep_ret _))))))
  refine lock_out h3 ?_
  funext r
  by_cases hr : r = World.root w <;> simp [hr]

omit [AddCommMonoid V] in
theorem bind_ret_right {A : Type} (p : Proc V ε A) : (p.bind fun b => .ret b) = p := by
  induction p with
  | ret a => rfl
  | raise e => rfl
  | act a k ih => simp only [Proc.bind, ih]
  | coll c x k ih => simp only [Proc.bind, ih]

theorem average_const {A : Type} [AddCommMonoid A] [Module ℂ A] (c : ℕ → A) (r : Fin w.size) :
    allAverage (K := ℂ) w c r = allAverage (K := ℂ) w c 0 := by
  unfold allAverage
  split_ifs with hm
  · rfl
  · have := w.serial (by simpa using hm)
    have : (r : ℕ) = 0 := by omega
    rw [this]

/-- C138: the usual script - choose the output, calculate the correlation function, analyse it: it ends, all processes have the result of the
analysis of the averaged correlation function, and the screen and the files show the same lines in the same order in every run. -/
theorem C138_dos_script {A B : Type} [AddCommMonoid A] [Module ℂ A] [Payload A V] [Inhabited A] [AddCommMonoid B] [Payload B V]
    {loc : ℕ → Except ε A} {c : ℕ → A} (h : onRanks w loc = .ok c) {f : A → Except ε B} {v : B} (hf : f (allAverage (K := ℂ) w c 0) = .ok v)
    (lines : List String) (par echo file : String) :
    Delivers (V := V) (World.root w) (fun r => do
        outputProc w (.ok ()) lines par r
        let x ← corrProc w (some echo) loc (some file) r
        masterProc w (f x) r) (fun _ => v)
      (fun r => if r = World.root w then lines.map .print ++ [.save par, .print echo, .save file] else []) := by
  have hs : Script.Sound (V := V) (World.root w) (.call (fun r => outputProc w (.ok ()) lines par r) fun _ =>
      .call (fun r => corrProc w (some echo) loc (some file) r) fun x => .call (fun r => masterProc w (f x) r) .done) v
      ((lines.map .print ++ [.save par]) ++ ([.print echo, .save file] ++ ([] ++ []))) := by
    refine .call (lock_output lines par) (.call (b := allAverage (K := ℂ) w c 0) ?_ (.call (b := v) ?_ (.done v)))
    · have := lock_corr (V := V) (echo := some echo) (file := some file) h
      simp only [average_const] at this
      exact this
    · exact lock_out (lock_masterBcast hf) (by funext r; simp)
  have := C138_script hs
  have hp : ∀ r : Fin w.size, (Script.call (fun r : Fin w.size => outputProc (V := V) w (.ok ()) lines par r) fun _ =>
      .call (fun r => corrProc w (some echo) loc (some file) r) fun x => .call (fun r => masterProc w (f x) r) .done).proc r = (do
        outputProc w (.ok ()) lines par r
        let x ← corrProc w (some echo) loc (some file) r
        masterProc w (f x) r) := fun r => by
    simp only [Script.proc, bind_ret_right]
    rfl
  simpa only [hp, List.append_assoc, List.cons_append, List.nil_append, List.append_nil] using this

end Tbpm

/-! ## Failures -/

section Fail

theorem fails_lift {ε A : Type} {m : ℕ} {x : Except ε A} {f : A → Proc V ε β} (h : ∀ a, x = .ok a → Fails m (f a)) : Fails m ((lift x).bind f) := by
  cases x with
  | error e => exact .raise e
  | ok a => exact h a rfl

variable [Payload (ℕ → ℕ → ℝ) V] [Payload (ℕ → ℕ → ℕ → ℂ) V]

theorem fails_states_quiet {D : Diag} {buf : Buf} {n : ℕ} {kpts : ℕ → Vec3 ℝ} {conv : ℤ} {m r : ℕ}
    {f : (ℕ → ℕ → ℝ) × (ℕ → ℕ → ℕ → ℂ) → Proc V ParErr β} (h : ∀ x, Fails m (f x)) : Fails m ((statesProc D w buf n kpts conv false r).bind f) := by
  unfold statesProc
  generalize (List.foldlM (statesStep D kpts conv) ((buf, 0, 0) : StSt) (rangeElems (distRange w n r)) : Except ParErr StSt) = x
  cases x with
  | error e => exact .raise e
  | ok a => exact h _

theorem fails_states {D : Diag} {buf : Buf} {n : ℕ} {kpts : ℕ → Vec3 ℝ} {conv : ℤ} {m r : ℕ} (hm : w.mpi = true)
    {f : (ℕ → ℕ → ℝ) × (ℕ → ℕ → ℕ → ℂ) → Proc V ParErr β} (h : ∀ x, Fails m (f x)) : Fails (m + 2) ((statesProc D w buf n kpts conv true r).bind f) := by
  unfold statesProc
  generalize (List.foldlM (statesStep D kpts conv) ((buf, 0, 0) : StSt) (rangeElems (distRange w n r)) : Except ParErr StSt) = x
  cases x with
  | error e => exact .raise e
  | ok a =>
    simp only [pAllReduce, hm, if_true]
    exact .coll fun v => .coll fun v' => h _

theorem lift_ok_bind {ε A B : Type} (a : A) (f : A → Proc V ε B) : (lift (.ok a) >>= f) = f a := rfl

theorem ret_bind {ε A B : Type} (a : A) (f : A → Proc V ε B) : (pure a >>= f) = f a := rfl

/-- C138: with more processes than k-points a process without k-points raises an exception in the calculation of the AC conductivity, and
every process which has k-points (and whose own calculation succeeds) waits for ever. -/
theorem C138_ac_hangs [Payload (ℕ → ℂ) V] (hm : w.mpi = true) {L : Lind} (hk : L.numKpt < w.size) (buf : ℕ → Buf) (fortran : Bool)
    (pos : ℤ → Vec3 ℝ) (hops : List (Cell × Pair × ℂ)) (c : Fin 3 × Fin 3) {km : List (Vec3 ℝ)}
    (hkm : L.frac2cart ((buildKmeshGrid L.mesh).map L.grid2frac) = .ok km) (r : Fin w.size) (hr : (r : ℕ) < L.numKpt) {st : StSt}
    (hst : (rangeElems (distRange w L.numKpt r)).foldlM (statesStep L.D L.kFrac 1) ((buf r, 0, 0) : StSt) = .ok st) :
    Hangs (V := V) (World.root w) (fun r => acProc L w (buf r) fortran pos hops (some c) r) r := by
  refine hang (q := ⟨L.numKpt, hk⟩) (m := 0) ?_ ?_
  · unfold acProc
    refine fails_lift fun km _ => fails_lift fun c _ => fails_states_quiet fun x => fails_lift fun bd hbd => ?_
    rw [((Verif.Props.C43_dist_bound w L.numKpt L.numKpt hk).1).2 le_rfl] at hbd
    cases hbd
  · obtain ⟨a, b, hab, -⟩ := (Verif.Props.C43_dist_bound w L.numKpt r r.2).2 hr
    unfold acProc statesProc
    simp only [hkm, hst, hab, pAllReduce, hm, if_true]
    exact .zero (Or.inl (by simp))

/-- C138: likewise the dynamical polarization at arbitrary q-points. -/
theorem C138_dyn_arbitrary_hangs [Payload (ℕ → ℕ → ℂ) V] (hm : w.mpi = true) {L : Lind} (hk : L.numKpt < w.size) (buf : ℕ → Buf) (fortran : Bool)
    {q : Vec3 ℝ} {qs : List (Vec3 ℝ)} {qf : Vec3 ℝ} {qfs : List (Vec3 ℝ)} (hqf : L.cart2frac (q :: qs) = .ok (qf :: qfs)) (r : Fin w.size)
    (hr : (r : ℕ) < L.numKpt) {st st' : StSt}
    (hst : (rangeElems (distRange w L.numKpt r)).foldlM (statesStep L.D L.kFrac 2) ((buf r, 0, 0) : StSt) = .ok st)
    (hst' : (rangeElems (distRange w L.numKpt r)).foldlM (statesStep L.D (fun i => L.kFrac i + qf) 2) ((buf r, 0, 0) : StSt) = .ok st') :
    Hangs (V := V) (World.root w) (fun r => dynArbProc L w (buf r) fortran (q :: qs) r) r := by
  refine hang (q := ⟨L.numKpt, hk⟩) (m := 0) ?_ ?_
  · unfold dynArbProc
    refine fails_lift fun km _ => fails_states_quiet fun x => fails_lift fun bd hbd => ?_
    rw [((Verif.Props.C43_dist_bound w L.numKpt L.numKpt hk).1).2 le_rfl] at hbd
    cases hbd
  · obtain ⟨a, b, hab, -⟩ := (Verif.Props.C43_dist_bound w L.numKpt r r.2).2 hr
    unfold dynArbProc arbProc statesProc
    simp only [hqf, hst, hab, pAllReduce, hm, if_true, List.zip_cons_cons, List.zipIdx_cons, List.foldlM_cons, lift_ok_bind, ret_bind, Bool.false_eq_true, if_false, hst']
    exact Needs.zero (c := .allReduce) (Or.inl (by simp))

/-- C138: likewise the dynamical polarization at q-points of the mesh. -/
theorem C138_dyn_regular_hangs [Payload (ℕ → ℕ → ℕ → ℝ) V] [Payload (ℕ → ℕ → ℂ) V] (hm : w.mpi = true) {L : Lind} (hk : L.numKpt < w.size)
    (buf : ℕ → Buf) (fortran : Bool) {q : Grid} {qs : List Grid} {qc : Vec3 ℝ} {qcs : List (Vec3 ℝ)}
    (hqc : L.frac2cart ((q :: qs).map L.grid2frac) = .ok (qc :: qcs)) (r : Fin w.size) (hr : (r : ℕ) < L.numKpt) {st : StSt}
    (hst : (rangeElems (distRange w L.numKpt r)).foldlM (statesStep L.D L.kFrac 2) ((buf r, 0, 0) : StSt) = .ok st) :
    Hangs (V := V) (World.root w) (fun r => dynRegProc L w (buf r) fortran (q :: qs) r) r := by
  refine hang (q := ⟨L.numKpt, hk⟩) (m := 2) ?_ ?_
  · unfold dynRegProc
    refine fails_lift fun km _ => fails_states hm fun x => fails_lift fun bd hbd => ?_
    rw [((Verif.Props.C43_dist_bound w L.numKpt L.numKpt hk).1).2 le_rfl] at hbd
    cases hbd
  · obtain ⟨a, b, hab, -⟩ := (Verif.Props.C43_dist_bound w L.numKpt r r.2).2 hr
    unfold dynRegProc regProc statesProc
    simp only [hqc, hst, hab, pAllReduce, hm, if_true, List.zip_cons_cons, List.zipIdx_cons, List.foldlM_cons]
    exact .coll fun v => .coll fun v' => .zero (Or.inl (by simp))

end Fail

/-- C138: if the master cannot make the output directory, all other processes wait for ever. -/
theorem C138_output_hangs {ε : Type} (hm : w.mpi = true) (e : ε) (lines : List String) (file : String) (r : Fin w.size) (hr : r ≠ World.root w) :
    Hangs (V := V) (World.root w) (fun r => outputProc w (.error e) lines file r) r := by
  refine hang (q := World.root w) (m := 0) (.raise e) ?_
  have : (r : ℕ) ≠ 0 := fun h => hr (Fin.ext h)
  unfold outputProc masterOr
  simp only [this, if_false, pBarrier, hm, if_true]
  exact .zero (Or.inl (by simp))

/-- C138: if the master's calculation in a function of the analyzer raises, all other processes wait for ever. -/
theorem C138_analysis_hangs {ε A : Type} [AddCommMonoid A] [Payload A V] (hm : w.mpi = true) (e : ε) (r : Fin w.size) (hr : r ≠ World.root w) :
    Hangs (V := V) (World.root w) (fun r => masterProc (A := A) w (.error e : Except ε A) r) r := by
  refine hang (q := World.root w) (m := 0) (.raise e) ?_
  have : (r : ℕ) ≠ 0 := fun h => hr (Fin.ext h)
  unfold masterProc masterOr
  simp only [this, if_false, pBcast, hm, if_true]
  exact .zero (Or.inr rfl)

end Verif.Mpi

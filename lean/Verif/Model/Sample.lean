import Verif.Model.SuperCell
import Verif.Model.InterHop
import Verif.Model.Csr
import Verif.Model.Base

/-!
# Model of the class `Sample`

`/repo/tbplas/builder/sample.py` 18-594, `SCInterHopping` of
`/repo/tbplas/builder/super.py` 921-1005, and the kernels of
`/repo/tbplas/cython/sample.pyx` 18-114 and 442-530.

Supercells are objects shared with the caller and with inter-hopping containers:
they live in a heap (`ℕ → SCell`) and are referred to by their identity.  Two
supercells made from the same primitive cell hold separate copies of it here.
Plotting, `calc_bands`, `calc_dos` and the printing functions are not modelled.
-/

namespace Verif

/-- Exceptions of `Sample`. -/
inductive SampErr where
  | void | comp (i : ℕ) | closure (i : ℕ) | interHopVoid | value | type | fileNotFound | sc (e : SCErr)
deriving DecidableEq

/-- Supercell objects by identity. -/
abbrev SCHeap (F E Λ : Type*) := ℕ → SCell F E Λ

/-- `SCInterHopping`, super.py:921-953: the container and the identities of the two supercells. -/
structure InterSC (E : Type*) where
  hop : InterHop E
  bra : ℕ
  ket : ℕ

/-- Attributes of a sample, sample.py:57-101; `None` arrays are `none`. -/
structure Sample (F E : Type*) where
  cells : List ℕ
  inters : List (InterSC E)
  eng : Option (List F)
  pos : Option (List (Vec3 F))
  hop : Option (SCell.HopOut F E)
  rescale : F

/-- An argument of the constructor. -/
inductive SampArg (E : Type*) where
  | sc (id : ℕ)
  | inter (h : InterSC E)
  | other

section Assembly

variable {F E Λ : Type*} [Field F] [DecidableEq F] [Star E]

/-- `get_orb_eng`, super.py:663-670. -/
def SCell.getOrbEng (H : HashFns F E Λ) (HS : SCHash F E Λ) (s : SCell F E Λ) :
    SCell F E Λ × Except SCErr (List F) :=
  match SCell.syncArray HS s false with
  | (s', .error e) => (s', .error e)
  | (s', .ok ()) =>
    (s', .ok (buildOrbEng (fun i => (PrimCell.syncOrb H s'.pc false).arrEng.getD i.toNat 0) s'.orbId))

/-- `get_orb_pos`, super.py:672-685. -/
def SCell.getOrbPos (H : HashFns F E Λ) (HS : SCHash F E Λ) (s : SCell F E Λ) :
    SCell F E Λ × Except SCErr (List (Vec3 F)) :=
  match SCell.syncArray HS s false with
  | (s', .error e) => (s', .error e)
  | (s', .ok ()) => (s', .ok (s'.orbPos H))

/-- `heap[id] = s`. -/
def heapSet (hp : SCHeap F E Λ) (id : ℕ) (s : SCell F E Λ) : SCHeap F E Λ :=
  fun k => if k = id then s else hp k

/-- Evaluation of a list comprehension `[f(sc) for sc in self._sc_list]`, where `f` may change the
supercell or raise. -/
def collect {α : Type*} (f : SCell F E Λ → SCell F E Λ × Except SCErr α) :
    SCHeap F E Λ → List ℕ → SCHeap F E Λ × Except SampErr (List α)
  | hp, [] => (hp, .ok [])
  | hp, id :: ids =>
    match f (hp id) with
    | (s', .error e) => (heapSet hp id s', .error (.sc e))
    | (s', .ok a) =>
      match collect f (heapSet hp id s') ids with
      | (hp', .error e) => (hp', .error e)
      | (hp', .ok as) => (hp', .ok (a :: as))

/-- Row of `build_inter_dr`, super.pyx:1086-1138 (no bounds checks: rows outside the arrays are
unspecified, here zero). -/
def interDr (scLat : Mat3 F) (posBra posKet : ℤ → Vec3 F) (t : Cell × Pair × E) : Vec3 F := fun x =>
  posKet t.2.1.2 x - posBra t.2.1.1 x + (t.1.1 : F) * scLat 0 x + (t.1.2.1 : F) * scLat 1 x +
    (t.1.2.2 : F) * scLat 2 x

/-- `SCInterHopping.get_hop`, super.py:955-1005 with `check_dup=False`.  The purge of empty cells in
the container (`to_array`) is not recorded. -/
def interGetHop (H : HashFns F E Λ) (HS : SCHash F E Λ) (hp : SCHeap F E Λ) (h : InterSC E) :
    SCHeap F E Λ × Except SampErr (List (SCHop F E)) :=
  if h.hop.toList.length = 0 then (hp, .error .interHopVoid) else
  match SCell.getOrbPos H HS (hp h.bra) with
  | (s1, .error e) => (heapSet hp h.bra s1, .error (.sc e))
  | (s1, .ok pb) =>
    let hp1 := heapSet hp h.bra s1
    match SCell.getOrbPos H HS (hp1 h.ket) with
    | (s2, .error e) => (heapSet hp1 h.ket s2, .error (.sc e))
    | (s2, .ok pk) =>
      (heapSet hp1 h.ket s2, .ok (h.hop.toList.map fun t =>
        ⟨t.2.1.1, t.2.1.2, t.2.2, interDr (scLatVec s2.pc.lat s2.dim) (rowAt pb) (rowAt pk) t⟩))

/-- The loop over `_hop_list` in `init_hop`, sample.py:180-187, without the shifts. -/
def collectInter (H : HashFns F E Λ) (HS : SCHash F E Λ) :
    SCHeap F E Λ → List (InterSC E) → SCHeap F E Λ × Except SampErr (List (List (SCHop F E)))
  | hp, [] => (hp, .ok [])
  | hp, h :: hs =>
    match interGetHop H HS hp h with
    | (hp', .error e) => (hp', .error e)
    | (hp', .ok a) =>
      match collectInter H HS hp' hs with
      | (hp'', .error e) => (hp'', .error e)
      | (hp'', .ok as) => (hp'', .ok (a :: as))

namespace Sample

/-- `_get_num_orb_sc`, sample.py:103-110. -/
def numOrbList (hp : SCHeap F E Λ) (s : Sample F E) : List ℤ := s.cells.map (fun id => (hp id).numOrbSc)

/-- `num_orb`, sample.py:652-660. -/
def numOrb (hp : SCHeap F E Λ) (s : Sample F E) : ℤ := (s.numOrbList hp).sum

/-- `_get_ind_start`, sample.py:112-121. -/
def indStart (hp : SCHeap F E Λ) (s : Sample F E) : List ℤ :=
  (List.range (s.numOrbList hp).length).map (fun k => ((s.numOrbList hp).take k).sum)

/-- `hop_i += a; hop_j += b`, sample.py:173-174 and 182-183. -/
def shiftTerm (a b : ℤ) (h : SCHop F E) : SCHop F E := { h with i := h.i + a, j := h.j + b }

/-- `ind_start[self._sc_list.index(sc)]`. -/
def startOf (hp : SCHeap F E Λ) (s : Sample F E) (id : ℕ) : ℤ := (s.indStart hp).getD (s.cells.idxOf id) 0

/-- `init_orb_eng`, sample.py:123-136. -/
def initEng (H : HashFns F E Λ) (HS : SCHash F E Λ) (hp : SCHeap F E Λ) (s : Sample F E) (force : Bool) :
    SCHeap F E Λ × Sample F E × Except SampErr Unit :=
  if force ∨ s.eng.isNone then
    match collect (SCell.getOrbEng H HS) hp s.cells with
    | (hp', .error e) => (hp', s, .error e)
    | (hp', .ok l) => (hp', { s with eng := some l.flatten }, .ok ())
  else (hp, s, .ok ())

/-- `init_orb_pos`, sample.py:138-151. -/
def initPos (H : HashFns F E Λ) (HS : SCHash F E Λ) (hp : SCHeap F E Λ) (s : Sample F E) (force : Bool) :
    SCHeap F E Λ × Sample F E × Except SampErr Unit :=
  if force ∨ s.pos.isNone then
    match collect (SCell.getOrbPos H HS) hp s.cells with
    | (hp', .error e) => (hp', s, .error e)
    | (hp', .ok l) => (hp', { s with pos := some l.flatten }, .ok ())
  else (hp, s, .ok ())

/-- `init_hop`, sample.py:153-198.  Concatenating an integer and a float index array gives a float
array. -/
def initHop (H : HashFns F E Λ) (HS : SCHash F E Λ) (hp : SCHeap F E Λ) (s : Sample F E) (force : Bool) :
    SCHeap F E Λ × Sample F E × Except SampErr Unit :=
  if force ∨ s.hop.isNone then
    let start := s.indStart hp
    let off := s.startOf hp
    match collect (SCell.getHop H HS) hp s.cells with
    | (hp1, .error e) => (hp1, s, .error e)
    | (hp1, .ok outs) =>
      match collectInter H HS hp1 s.inters with
      | (hp2, .error e) => (hp2, s, .error e)
      | (hp2, .ok ints) =>
        let intra := (outs.zip start).flatMap fun q => q.1.terms.map (shiftTerm q.2 q.2)
        let inter := (ints.zip s.inters).flatMap fun q => q.1.map (shiftTerm (off q.2.bra) (off q.2.ket))
        (hp2, { s with hop := some ⟨intra ++ inter, outs.any (fun o => o.idxFloat)⟩, rescale := 1 }, .ok ())
  else (hp, s, .ok ())

/-- The locking loops at the end of `reset_array`, sample.py:215-218.  (The subscriptions exist since
construction, so `lock` does not raise.) -/
def lockAll (hp : SCHeap F E Λ) (s : Sample F E) : SCHeap F E Λ × Sample F E :=
  (fun k => if k ∈ s.cells then { hp k with locked := true } else hp k,
    { s with inters := s.inters.map fun h => { h with hop := { h.hop with locked := true } } })

/-- `reset_array` (and `update`), sample.py:200-218 and 264-270. -/
def reset (H : HashFns F E Λ) (HS : SCHash F E Λ) (hp : SCHeap F E Λ) (s : Sample F E) :
    SCHeap F E Λ × Sample F E × Except SampErr Unit :=
  match (if s.eng.isSome then initEng H HS hp s true else (hp, s, .ok ())) with
  | (hp1, s1, .error e) => (hp1, s1, .error e)
  | (hp1, s1, .ok ()) =>
    match (if s1.pos.isSome then initPos H HS hp1 s1 true else (hp1, s1, .ok ())) with
    | (hp2, s2, .error e) => (hp2, s2, .error e)
    | (hp2, s2, .ok ()) =>
      match (if s2.hop.isSome then initHop H HS hp2 s2 true else (hp2, s2, .ok ())) with
      | (hp3, s3, .error e) => (hp3, s3, .error e)
      | (hp3, s3, .ok ()) => let r := lockAll hp3 s3; (r.1, r.2, .ok ())

/-- Parsing loop of the constructor, sample.py:75-84: supercells, inter-hoppings, heap with locks. -/
def parseArgs : SCHeap F E Λ → List (SampArg E) → ℕ → SCHeap F E Λ × Except SampErr (List ℕ × List (InterSC E))
  | hp, [], _ => (hp, .ok ([], []))
  | hp, .other :: _, i => (hp, .error (.comp i))
  | hp, .sc id :: as, i =>
    match parseArgs (heapSet hp id { hp id with locked := true }) as (i + 1) with
    | (hp', .ok r) => (hp', .ok (id :: r.1, r.2))
    | (hp', .error e) => (hp', .error e)
  | hp, .inter h :: as, i =>
    match parseArgs hp as (i + 1) with
    | (hp', .ok r) => (hp', .ok (r.1, { h with hop := { h.hop with locked := true } } :: r.2))
    | (hp', .error e) => (hp', .error e)

/-- Closure check, sample.py:86-91. -/
def closureErr (cells : List ℕ) : List (InterSC E) → ℕ → Option SampErr
  | [], _ => none
  | h :: hs, i => if h.bra ∉ cells ∨ h.ket ∉ cells then some (.closure i) else closureErr cells hs (i + 1)

/-- `Sample.__init__`, sample.py:57-101.  The locks set on inter-hopping containers by a failing
constructor are not recorded. -/
def new (hp : SCHeap F E Λ) (args : List (SampArg E)) : SCHeap F E Λ × Except SampErr (Sample F E) :=
  if args.length = 0 then (hp, .error .void) else
  match parseArgs hp args 0 with
  | (hp', .error e) => (hp', .error e)
  | (hp', .ok r) =>
    match closureErr r.1 r.2 0 with
    | some e => (hp', .error e)
    | none => (hp', .ok ⟨r.1, r.2, none, none, none, 1⟩)

/-! ## Files -/

/-- The files written by `save_array`. -/
structure Files (F E : Type*) where
  eng : Option (List F)
  pos : Option (List (Vec3 F))
  hopI : Option (List ℤ × Bool)
  hopJ : Option (List ℤ × Bool)
  hopV : Option (List E)
  dr : Option (List (Vec3 F))
  rescale : Option F

/-- An empty directory. -/
def Files.empty : Files F E := ⟨none, none, none, none, none, none, none⟩

/-- `save_array`, sample.py:220-238.  The flag records the dtype of the index arrays. -/
def save (s : Sample F E) (d : Files F E) : Files F E :=
  let d1 := if s.eng.isSome then { d with eng := s.eng } else d
  let d2 := if s.pos.isSome then { d1 with pos := s.pos } else d1
  match s.hop with
  | none => d2
  | some o => { d2 with
      hopI := some (o.terms.map SCHop.i, o.idxFloat), hopJ := some (o.terms.map SCHop.j, o.idxFloat),
      hopV := some (o.terms.map SCHop.v), dr := some (o.terms.map SCHop.dr), rescale := some s.rescale }

/-- Rows of the four arrays. -/
def zipTerms : List ℤ → List ℤ → List E → List (Vec3 F) → List (SCHop F E)
  | i :: is, j :: js, v :: vs, r :: rs => ⟨i, j, v, r⟩ :: zipTerms is js vs rs
  | _, _, _, _ => []

/-- `load_array`, sample.py:240-262, for directories in which the hopping files are either all present
with equal lengths or all missing (partially written directories, which leave the sample with some
of the arrays replaced, are not modelled). -/
def load (s : Sample F E) (d : Files F E) : Sample F E :=
  let s1 := if d.eng.isSome then { s with eng := d.eng } else s
  let s2 := if d.pos.isSome then { s1 with pos := d.pos } else s1
  match d.hopI, d.hopJ, d.hopV, d.dr, d.rescale with
  | some (i, fi), some (j, _), some v, some r, some c =>
    { s2 with hop := some ⟨zipTerms i j v r, fi⟩, rescale := c }
  | _, _, _, _, _ => s2

/-! ## Rescaling -/

/-- `rescale_ham`, sample.py:272-299.  `auto` stands for the kernel `get_rescale` (typed `long[::1]`, so
it rejects float index arrays) and `ι` for the conversion of a real number when the complex array
is multiplied by it. -/
def rescaleHam [Mul E] (auto : List F → List (SCHop F E) → F) (ι : F → E) (H : HashFns F E Λ)
    (HS : SCHash F E Λ) (hp : SCHeap F E Λ) (s : Sample F E) (factor : Option F) :
    SCHeap F E Λ × Sample F E × Except SampErr Unit :=
  match initEng H HS hp s false with
  | (hp1, s1, .error e) => (hp1, s1, .error e)
  | (hp1, s1, .ok ()) =>
    match initHop H HS hp1 s1 false with
    | (hp2, s2, .error e) => (hp2, s2, .error e)
    | (hp2, s2, .ok ()) =>
      match s2.eng, s2.hop with
      | some eng, some o =>
        if factor = none ∧ o.idxFloat then (hp2, s2, .error .value) else
        let f := factor.getD (auto eng o.terms)
        (hp2, { s2 with
          eng := some (eng.map (· * (s2.rescale / f)))
          hop := some ⟨o.terms.map (fun h => { h with v := h.v * ι (s2.rescale / f) }), o.idxFloat⟩
          rescale := f }, .ok ())
      | _, _ => (hp2, s2, .error .type)

/-- Calls which build or rescale arrays. -/
inductive ROp (F : Type*) where
  | rescale (factor : Option F)
  | initEng (force : Bool)
  | initPos (force : Bool)
  | initHop (force : Bool)
  | reset

/-- Effect of a call, with its outcome. -/
def rstep [Mul E] (auto : List F → List (SCHop F E) → F) (ι : F → E) (H : HashFns F E Λ) (HS : SCHash F E Λ)
    (st : SCHeap F E Λ × Sample F E) : ROp F → SCHeap F E Λ × Sample F E × Except SampErr Unit
  | .rescale f => rescaleHam auto ι H HS st.1 st.2 f
  | .initEng b => initEng H HS st.1 st.2 b
  | .initPos b => initPos H HS st.1 st.2 b
  | .initHop b => initHop H HS st.1 st.2 b
  | .reset => reset H HS st.1 st.2

/-- State after a history of calls, failing calls included. -/
def rrun [Mul E] (auto : List F → List (SCHop F E) → F) (ι : F → E) (H : HashFns F E Λ) (HS : SCHash F E Λ)
    (st : SCHeap F E Λ × Sample F E) (ops : List (ROp F)) : SCHeap F E Λ × Sample F E :=
  ops.foldl (fun st op => let r := rstep auto ι H HS st op; (r.1, r.2.1)) st

end Sample
end Assembly

/-! ## Kernels -/

/-- `factor` of `set_mag_field`, sample.pyx:47: the constant `pi / 4135.666734`. -/
noncomputable def magFactor : ℝ := Real.pi / 4135.666734

/-- `phase` in the three branches of `set_mag_field`, sample.pyx:50-72. -/
noncomputable def magPhase (gauge : ℤ) (B : ℝ) (ri rj dr : Vec3 ℝ) : ℝ :=
  if gauge = 0 then magFactor * B * dr 0 * (rj 1 + ri 1)
  else if gauge = 1 then -magFactor * B * dr 1 * (rj 0 + ri 0)
  else magFactor * 0.5 * B * (dr 0 * (rj 0 + ri 0) - dr 1 * (rj 1 + ri 1))

/-- `set_mag_field`, sample.pyx:18-72. -/
noncomputable def setMagField (gauge : ℤ) (B : ℝ) (pos : ℤ → Vec3 ℝ) (hops : List (SCHop ℝ ℂ)) :
    List (SCHop ℝ ℂ) :=
  hops.map fun h => { h with v := h.v * eiPhase (magPhase gauge B (pos h.i) (pos h.j) h.dr) }

/-- `ham_sum` of `get_rescale`, sample.pyx:104-112. -/
noncomputable def hamSum (eng : List ℝ) (hops : List (SCHop ℝ ℂ)) : ℤ → ℝ :=
  hops.foldl (fun s h =>
    let a := Real.sqrt (h.v.re ^ 2 + h.v.im ^ 2)
    let s1 := arrPut s h.i (s h.i + a)
    arrPut s1 h.j (s1 h.j + a))
    (eng.zipIdx.foldl (fun s q => arrPut s q.2 q.1) (fun _ => 0))

/-- `np.max` (raises for an empty array; here 0). -/
noncomputable def npMax : List ℝ → ℝ
  | [] => 0
  | x :: xs => xs.foldl max x

/-- `get_rescale`, sample.pyx:75-114. -/
noncomputable def getRescale (eng : List ℝ) (hops : List (SCHop ℝ ℂ)) : ℝ :=
  npMax ((List.range eng.length).map fun k : ℕ => hamSum eng hops k)

/-- `build_hop_k`, sample.pyx:442-485. -/
noncomputable def buildHopK (hops : List (SCHop ℝ ℂ)) (k : Vec3 ℝ) : List (SCHop ℝ ℂ) :=
  hops.map fun h => { h with v := h.v * eiPhase (h.dr 0 * k 0 + h.dr 1 * k 1 + h.dr 2 * k 2) }

/-- `a[i, j] = v` for a dense matrix. -/
def matPut {α : Type*} (f : ℤ → ℤ → α) (i j : ℤ) (v : α) : ℤ → ℤ → α :=
  fun a b => if a = i ∧ b = j then v else f a b

/-- `fill_ham`, sample.pyx:488-530. -/
noncomputable def fillHam (eng : List ℝ) (hops : List (SCHop ℝ ℂ)) (ham : ℤ → ℤ → ℂ) : ℤ → ℤ → ℂ :=
  hops.foldl (fun m h =>
    let m1 := matPut m h.i h.j (m h.i h.j + h.v)
    matPut m1 h.j h.i (m1 h.j h.i + star h.v))
    (eng.zipIdx.foldl (fun m q => matPut m q.2 q.2 (q.1 : ℂ)) ham)

namespace Sample

variable {Λ : Type*}

open Classical in
/-- `set_magnetic_field`, sample.py:301-354. -/
noncomputable def setMag (H : HashFns ℝ ℂ Λ) (HS : SCHash ℝ ℂ Λ) (hp : SCHeap ℝ ℂ Λ) (s : Sample ℝ ℂ)
    (B : ℝ) (gauge : ℤ) : SCHeap ℝ ℂ Λ × Sample ℝ ℂ × Except SampErr Unit :=
  match initPos H HS hp s false with
  | (hp1, s1, .error e) => (hp1, s1, .error e)
  | (hp1, s1, .ok ()) =>
    match initHop H HS hp1 s1 false with
    | (hp2, s2, .error e) => (hp2, s2, .error e)
    | (hp2, s2, .ok ()) =>
      if ¬ (gauge = 0 ∨ gauge = 1 ∨ gauge = 2) then (hp2, s2, .error .value) else
      match s2.pos, s2.hop with
      | some pos, some o =>
        if o.idxFloat then (hp2, s2, .error .value) else
        (hp2, { s2 with hop := some ⟨setMagField gauge B (rowAt pos) o.terms, o.idxFloat⟩ }, .ok ())
      | _, _ => (hp2, s2, .error .type)

open Classical in
/-- `set_k_point`, sample.py:356-373: `k` in fractional coordinates of the first supercell. -/
noncomputable def setK (H : HashFns ℝ ℂ Λ) (HS : SCHash ℝ ℂ Λ) (hp : SCHeap ℝ ℂ Λ) (s : Sample ℝ ℂ)
    (k : Vec3 ℝ) : SCHeap ℝ ℂ Λ × Sample ℝ ℂ × Except SampErr Unit :=
  match initHop H HS hp s false with
  | (hp1, s1, .error e) => (hp1, s1, .error e)
  | (hp1, s1, .ok ()) =>
    match s1.hop, s1.cells with
    | some o, c :: _ =>
      match genReciprocal (scLatVec (hp1 c).pc.lat (hp1 c).dim) with
      | none => (hp1, s1, .error .value)
      | some B => (hp1, { s1 with hop := some ⟨buildHopK o.terms (Matrix.vecMul k B), o.idxFloat⟩ }, .ok ())
    | _, _ => (hp1, s1, .error .type)

/-- `set_ham_dense`, sample.py:524-556, on initialised arrays; the incoming matrix is multiplied by
zero first.  `none` for an illegal convention or a singular lattice. -/
noncomputable def setHamDense (lat : Mat3 ℝ) (s : Sample ℝ ℂ) (eng : List ℝ) (o : SCell.HopOut ℝ ℂ)
    (k : Vec3 ℝ) (convention : ℤ) (ham : ℤ → ℤ → ℂ) : Option (ℤ → ℤ → ℂ) :=
  if convention ≠ 1 then none else
  match genReciprocal lat with
  | none => none
  | some B =>
    let m := fillHam eng (buildHopK o.terms (Matrix.vecMul k B)) (fun a b => ham a b * 0)
    some (fun a b => m a b * (s.rescale : ℂ))

/-- Matrix element of `csr_matrix((v, (i, j)))`: repeated positions are added. -/
noncomputable def cooMat (hops : List (SCHop ℝ ℂ)) (a b : ℤ) : ℂ :=
  ((hops.filter fun h => h.i = a ∧ h.j = b).map SCHop.v).sum

/-- Matrix element of `dia_matrix((orb_eng, 0))`. -/
noncomputable def diaMat (eng : List ℝ) (a b : ℤ) : ℂ :=
  if a = b ∧ 0 ≤ a ∧ a < eng.length then ((eng.getD a.toNat 0 : ℝ) : ℂ) else 0

/-- `build_ham_csr`, sample.py:375-391, as a matrix, on initialised arrays. -/
noncomputable def hamCsr (eng : List ℝ) (hops : List (SCHop ℝ ℂ)) (a b : ℤ) : ℂ :=
  diaMat eng a b + cooMat hops a b + star (cooMat hops b a)

/-- `set_ham_csr`, sample.py:558-594, as a matrix, on initialised arrays. -/
noncomputable def setHamCsr (lat : Mat3 ℝ) (s : Sample ℝ ℂ) (eng : List ℝ) (o : SCell.HopOut ℝ ℂ)
    (k : Vec3 ℝ) (convention : ℤ) : Option (ℤ → ℤ → ℂ) :=
  if convention ≠ 1 then none else
  match genReciprocal lat with
  | none => none
  | some B => some (fun a b => hamCsr eng (buildHopK o.terms (Matrix.vecMul k B)) a b * (s.rescale : ℂ))

end Sample
end Verif

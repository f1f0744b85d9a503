import Verif.Props.KaneMele

/-! # Property C99: time reversal and Kramers pairs -/

namespace Verif.Props

open PrimCell Materials

variable {Λ : Type*}

/-- The orbital with the other spin; spins alternate. -/
def partner (i : ℕ) : ℕ := if i % 2 = 0 then i + 1 else i - 1

/-- `+1` for spin up, `-1` for spin down. -/
def spinSign (i : ℕ) : ℂ := if i % 2 = 0 then 1 else -1

/-- A cell that is invariant under time reversal: orbitals `2 a` and `2 a + 1` are the two spins of one orbital, and flipping both
spins of a hopping conjugates it, with a sign if it does not keep the spin. -/
structure TimeReversal (s : PrimCell ℝ ℂ Λ) (n : ℕ) : Prop where
  num : s.numOrb = 2 * n
  pos : ∀ i < 2 * n, s.orbs[partner i]?.map Orbital.position = s.orbs[i]?.map Orbital.position
  eng : ∀ i < 2 * n, s.orbs[partner i]?.map Orbital.energy = s.orbs[i]?.map Orbital.energy
  hop : ∀ R i j, i < 2 * n → j < 2 * n → amp s R i j = spinSign i * spinSign j * star (amp s R (partner i) (partner j))

theorem partner_partner (i : ℕ) : partner (partner i) = i := by unfold partner; grind

theorem partner_lt {i n : ℕ} (h : i < 2 * n) : partner i < 2 * n := by unfold partner; grind

theorem spinSign_partner (i : ℕ) : spinSign (partner i) = -spinSign i := by
  unfold spinSign partner
  split_ifs with h h1 h1 <;> first | omega | simp

theorem spinSign_sq (i : ℕ) : spinSign i * spinSign i = 1 := by unfold spinSign; split_ifs <;> simp

theorem star_spinSign (i : ℕ) : star (spinSign i) = spinSign i := by unfold spinSign; split_ifs <;> simp

theorem norm_spinSign (i : ℕ) : ‖spinSign i‖ = 1 := by unfold spinSign; split_ifs <;> simp

/-- The general relation between elements of the Hamiltonian at two points with opposite phases. -/
theorem tr_entry {s : PrimCell ℝ ℂ Λ} (hw : WF s) (hf : ArraysFresh s) {n : ℕ} (hT : TimeReversal s n) (k k' : Vec3 ℝ) (conv : ℤ)
    (ham ham' : IMat) (hok : setHamDense s k conv = .ok ham) (hok' : setHamDense s k' conv = .ok ham')
    (hk : ∀ x, ∃ m : ℤ, k x + k' x = m) (c : ℕ → ℂ)
    (hc : ∀ i o, s.orbs[i]? = some o → c i = if conv = 1 then eiPhase (-(2 * Real.pi * ∑ x, (k x + k' x) * o.position x)) else 1)
    (i j : ℕ) (hi : i < 2 * n) (hj : j < 2 * n) :
    ham i j * c j = spinSign i * spinSign j * c i * star (ham' (partner i) (partner j)) := by
  classical
  have hlen : s.orbs.length = 2 * n := hT.num
  obtain ⟨oi, hoi⟩ : ∃ o, s.orbs[i]? = some o := ⟨s.orbs[i], List.getElem?_eq_getElem (by omega)⟩
  obtain ⟨oj, hoj⟩ : ∃ o, s.orbs[j]? = some o := ⟨s.orbs[j], List.getElem?_eq_getElem (by omega)⟩
  obtain ⟨pi, hpi⟩ : ∃ o, s.orbs[partner i]? = some o :=
    ⟨s.orbs[partner i]'(by have := partner_lt hi; omega), List.getElem?_eq_getElem _⟩
  obtain ⟨pj, hpj⟩ : ∃ o, s.orbs[partner j]? = some o :=
    ⟨s.orbs[partner j]'(by have := partner_lt hj; omega), List.getElem?_eq_getElem _⟩
  have q1 : pi.position = oi.position := by have := hT.pos i hi; rw [hoi, hpi] at this; simpa using this
  have q2 : pj.position = oj.position := by have := hT.pos j hj; rw [hoj, hpj] at this; simpa using this
  have q3 : pi.energy = oi.energy := by have := hT.eng i hi; rw [hoi, hpi] at this; simpa using this
  let S : Finset Cell := ((C07_neighbours_finite s.hops i).image Prod.fst).toFinset ∪
    ((C07_neighbours_finite s.hops (partner i)).image Prod.fst).toFinset
  have hS : ∀ R, s.hops.get R i j ≠ none → R ∈ S := fun R hR =>
    Finset.mem_union_left _ ((Set.Finite.mem_toFinset _).2 ⟨(R, j), hR, rfl⟩)
  have hS' : ∀ R, s.hops.get R (partner i) (partner j) ≠ none → R ∈ S := fun R hR =>
    Finset.mem_union_right _ ((Set.Finite.mem_toFinset _).2 ⟨(R, partner j), hR, rfl⟩)
  rw [ham_entry hw hf k conv ham hok i j oi oj hoi hoj S hS,
    ham_entry hw hf k' conv ham' hok' (partner i) (partner j) pi pj hpi hpj S hS', q1, q2, q3]
  rw [add_mul, star_add, mul_add]
  congr 1
  · by_cases hij : i = j
    · subst hij
      rw [if_pos rfl, if_pos rfl, spinSign_sq]
      simp [mul_comm]
    · rw [if_neg hij, if_neg (fun h => hij (by have := congrArg partner h; rwa [partner_partner, partner_partner] at this))]
      simp
  · rw [star_sum, Finset.mul_sum, Finset.sum_mul]
    refine Finset.sum_congr rfl fun R _ => ?_
    have ha := hT.hop R i j hi hj
    unfold amp at ha
    rw [ha, star_mul']
    have hph : eiPhase (2 * Real.pi * ∑ x, k x * (cellAt R x + (if conv = 1 then oj.position x - oi.position x else 0))) * c j =
        c i * star (eiPhase (2 * Real.pi * ∑ x, k' x * (cellAt R x + (if conv = 1 then oj.position x - oi.position x else 0)))) := by
      obtain ⟨m0, h0⟩ := hk 0
      obtain ⟨m1, h1⟩ := hk 1
      obtain ⟨m2, h2⟩ := hk 2
      have hint : eiPhase (2 * Real.pi * ((m0 * R.1 + m1 * R.2.1 + m2 * R.2.2 : ℤ) : ℝ)) = 1 := eiPhase_int _
      rw [hc i oi hoi, hc j oj hoj, ← eiPhase_neg]
      split_ifs with h
      · rw [← eiPhase_add, ← eiPhase_add, ← one_mul (eiPhase (-_ + _)), ← hint, ← eiPhase_add]
        congr 1
        simp only [Fin.sum_univ_three, cellAt]
        push_cast
        rw [← h0, ← h1, ← h2]
        ring
      · rw [mul_one, ← hint, ← eiPhase_add]
        congr 1
        simp only [Fin.sum_univ_three, cellAt]
        push_cast
        rw [← h0, ← h1, ← h2]
        ring
    linear_combination (spinSign i * spinSign j * star ((s.hops.get R (partner i) (partner j)).getD 0)) * hph

theorem sum_partner (n : ℕ) (f : ℕ → ℂ) : ∑ i ∈ Finset.range (2 * n), f (partner i) = ∑ i ∈ Finset.range (2 * n), f i :=
  Finset.sum_nbij' partner partner (fun i hi => Finset.mem_range.2 (partner_lt (Finset.mem_range.1 hi)))
    (fun i hi => Finset.mem_range.2 (partner_lt (Finset.mem_range.1 hi))) (fun i _ => partner_partner i)
    (fun i _ => partner_partner i) (fun _ _ => rfl)

/-- `v` is a state of energy `μ`. -/
def IsState (n : ℕ) (ham : IMat) (μ : ℝ) (v : ℕ → ℂ) : Prop :=
  ∀ i < n, ∑ j ∈ Finset.range n, ham i j * v j = μ * v i

theorem tr_state {n : ℕ} {ham ham' : IMat} {c : ℕ → ℂ} (hc0 : ∀ i < 2 * n, c i ≠ 0)
    (h : ∀ i j : ℕ, i < 2 * n → j < 2 * n → ham i j * c j = spinSign i * spinSign j * c i * star (ham' (partner i) (partner j)))
    {μ : ℝ} {v : ℕ → ℂ} (hv : IsState (2 * n) ham' μ v) :
    IsState (2 * n) ham μ (fun i => spinSign i * c i * star (v (partner i))) := by
  intro i hi
  have h1 := congrArg star (hv (partner i) (partner_lt hi))
  rw [star_sum, ← sum_partner, star_mul', Complex.star_def, Complex.conj_ofReal] at h1
  calc ∑ j ∈ Finset.range (2 * n), ham i j * (spinSign j * c j * star (v (partner j)))
      = ∑ j ∈ Finset.range (2 * n), spinSign i * c i * star (ham' (partner i) (partner j) * v (partner j)) := by
        refine Finset.sum_congr rfl fun j hj => ?_
        rw [star_mul']
        linear_combination (spinSign j * star (v (partner j))) * h i j hi (Finset.mem_range.1 hj) +
          spinSign i * c i * star (ham' (partner i) (partner j)) * star (v (partner j)) * spinSign_sq j
    _ = _ := by
        rw [← Finset.mul_sum]
        simp only [Complex.star_def] at h1 ⊢
        rw [h1]
        ring

/-- **C99 (time reversal).** In every cell that is invariant under time reversal, whatever its size, the states at `-k` are the
time-reversed states at `k` and have the same energies. -/
theorem C99_time_reversal {s : PrimCell ℝ ℂ Λ} (hw : WF s) (hf : ArraysFresh s) {n : ℕ} (hT : TimeReversal s n) (k : Vec3 ℝ) (conv : ℤ)
    (ham ham' : IMat) (hok : setHamDense s k conv = .ok ham) (hok' : setHamDense s (-k) conv = .ok ham') (μ : ℝ) (v : ℕ → ℂ) :
    IsState (2 * n) ham μ v ↔ IsState (2 * n) ham' μ (fun i => spinSign i * star (v (partner i))) := by
  have key : ∀ (k k' : Vec3 ℝ) (ham ham' : IMat), setHamDense s k conv = .ok ham → setHamDense s k' conv = .ok ham' → k' = -k →
      ∀ v, IsState (2 * n) ham' μ v → IsState (2 * n) ham μ (fun i => spinSign i * star (v (partner i))) := by
    rintro k k' ham ham' h1 h2 rfl v hv
    have := tr_state (c := fun _ => 1) (fun _ _ => one_ne_zero) (fun i j hi hj =>
      tr_entry hw hf hT k (-k) conv ham ham' h1 h2 (fun x => ⟨0, by simp⟩) (fun _ => 1) (by intro i o _; simp [eiPhase_zero]) i j hi hj) hv
    simpa using this
  constructor
  · exact key (-k) k ham' ham hok' hok (by simp) v
  · intro h
    have := key k (-k) ham ham' hok hok' rfl _ h
    have h2 : IsState (2 * n) ham μ (fun i => -v i) := by
      convert this using 2 with i
      rw [star_mul', star_star, partner_partner, star_spinSign, spinSign_partner]
      linear_combination (v i) * spinSign_sq i
    intro i hi
    have := h2 i hi
    simp only [mul_neg, Finset.sum_neg_distrib, neg_inj] at this
    exact this

/-- **C99 (Kramers pairs).** At a Bloch vector with `2 k` in the reciprocal lattice every state has an orthogonal partner of the
same norm and the same energy. -/
theorem C99_kramers {s : PrimCell ℝ ℂ Λ} (hw : WF s) (hf : ArraysFresh s) {n : ℕ} (hT : TimeReversal s n) (k : Vec3 ℝ)
    (hk : ∀ x, ∃ m : ℤ, 2 * k x = m) (conv : ℤ) (ham : IMat) (hok : setHamDense s k conv = .ok ham) (μ : ℝ) (v : ℕ → ℂ)
    (hv : IsState (2 * n) ham μ v) :
    ∃ w, IsState (2 * n) ham μ w ∧ ∑ i ∈ Finset.range (2 * n), star (v i) * w i = 0 ∧
      ∑ i ∈ Finset.range (2 * n), ‖w i‖ ^ 2 = ∑ i ∈ Finset.range (2 * n), ‖v i‖ ^ 2 := by
  let c : ℕ → ℂ := fun i => (s.orbs[i]?).elim 1 fun o =>
    if conv = 1 then eiPhase (-(2 * Real.pi * ∑ x, (k x + k x) * o.position x)) else 1
  have hn : ∀ i, ‖c i‖ = 1 := by
    intro i
    simp only [c]
    cases s.orbs[i]? with
    | none => simp
    | some o =>
      simp only [Option.elim_some]
      split_ifs
      · rw [eiPhase_eq_exp, Complex.norm_exp_ofReal_mul_I]
      · simp
  have hcp : ∀ i < 2 * n, c (partner i) = c i := by
    intro i hi
    have := hT.pos i hi
    simp only [c]
    cases h1 : s.orbs[i]? <;> cases h2 : s.orbs[partner i]? <;> rw [h1, h2] at this <;> simp at this ⊢
    rw [this]
  refine ⟨fun i => spinSign i * c i * star (v (partner i)), ?_, ?_, ?_⟩
  · exact tr_state (fun i _ h => by have := hn i; rw [h] at this; simp at this) (fun i j hi hj =>
      tr_entry hw hf hT k k conv ham ham hok hok (fun x => by rw [← two_mul]; exact hk x) c (by
        intro i o ho; simp only [c]; rw [ho]; rfl) i j hi hj) hv
  · have h1 := sum_partner n fun i => star (v i) * (spinSign i * c i * star (v (partner i)))
    have h2 : ∑ i ∈ Finset.range (2 * n), star (v (partner i)) * (spinSign (partner i) * c (partner i) * star (v (partner (partner i)))) =
        -∑ i ∈ Finset.range (2 * n), star (v i) * (spinSign i * c i * star (v (partner i))) := by
      rw [← Finset.sum_neg_distrib]
      refine Finset.sum_congr rfl fun i hi => ?_
      rw [partner_partner, spinSign_partner, hcp i (Finset.mem_range.1 hi)]
      ring
    rw [h2] at h1
    exact self_eq_neg.1 h1.symm
  · have := sum_partner n fun i => ((‖v i‖ ^ 2 : ℝ) : ℂ)
    rw [← Complex.ofReal_sum, ← Complex.ofReal_sum, Complex.ofReal_inj] at this
    rw [← this]
    refine Finset.sum_congr rfl fun i _ => ?_
    rw [norm_mul, norm_mul, hn, norm_spinSign, norm_star]
    ring

theorem tr_blockSum {n : ℕ} (bs : List (Cell × (ℕ → ℕ → ℂ)))
    (h : ∀ b ∈ bs, ∀ i j, i < 2 * n → j < 2 * n → b.2 i j = spinSign i * spinSign j * star (b.2 (partner i) (partner j)))
    (R : Cell) (i j : ℕ) (hi : i < 2 * n) (hj : j < 2 * n) :
    blockSum bs R i j = spinSign i * spinSign j * star (blockSum bs R (partner i) (partner j)) := by
  unfold blockSum
  induction bs with
  | nil => simp
  | cons b bs ih =>
    have h1 := h b List.mem_cons_self i j hi hj
    have h2 := h b List.mem_cons_self j i hj hi
    have h3 := congrArg star h2
    rw [star_mul', star_mul', star_spinSign, star_spinSign, star_star] at h3
    rw [List.map_cons, List.map_cons, List.sum_cons, List.sum_cons, ih (fun b' hb' => h b' (List.mem_cons_of_mem _ hb')), star_add,
      mul_add]
    congr 1
    rw [star_add, mul_add]
    congr 1
    · split_ifs
      · exact h1
      · simp
    · split_ifs
      · rw [star_star, h3]; ring
      · simp

theorem soc_tr (q : Bool) : ∀ b ∈ socBlocks q, ∀ i j, i < 2 * 2 → j < 2 * 2 →
    b.2 i j = spinSign i * spinSign j * star (b.2 (partner i) (partner j)) := by
  intro b hb i j hi hj
  unfold socBlocks at hb
  simp only [ List.mem_cons, List.not_mem_nil, or_false] at hb
  rcases hb with rfl | rfl | rfl | rfl | rfl | rfl <;>
  · simp only [putBlock]
    interval_cases i <;> interval_cases j <;> simp [partner, spinSign, hop1st, hop2nd] <;>
      first | ring1 | (left; ring1)

/-- **C99 (symmetry).** The cells of `make_graphene_soc` are invariant under time reversal; their Hamiltonian exists at every Bloch
vector, and its states at `k` and `-k` and at the invariant points are paired as above. -/
theorem C99_symmetric (H : HashFns ℝ ℂ String) (hO : ∀ l, l ≠ [] → H.orb l ≠ H.orb []) (hP : ∀ l, l ≠ [] → H.hop l ≠ H.hop [])
    (q : Bool) :
    ∃ s, grapheneSoc H q = .ok s ∧ WF (syncArray H s) ∧ ArraysFresh (syncArray H s) ∧ TimeReversal (syncArray H s) 2 ∧
      ∀ k conv, conv = 1 ∨ conv = 2 → ∃ ham, setHamDense (syncArray H s) k conv = .ok ham := by
  obtain ⟨s, h1, h2, h3, h4, h5, hw, h8, h9⟩ := soc_spec H q
  have hz : blockSum (socBlocks q) (0, 0, 0) 0 2 ≠ 0 := by
    simp [blockSum, socBlocks, socParams, putBlock, hop1st]
  obtain ⟨b1, b2, b3, b4, b5, b6, -⟩ := build_ham hw hO hP h8 h9 (by rw [h4]; simp) (0, 0, 0) 0 2 (by
    rw [h5, if_pos ⟨by norm_num, by norm_num, by norm_num, by norm_num, hz⟩]; simp)
  refine ⟨s, h1, b1, b2, ⟨?_, ?_, ?_, ?_⟩, b6⟩
  · simp [numOrb, b3, h4]
  · intro i hi
    rw [b3, h4]
    interval_cases i <;> simp [partner]
  · intro i hi
    rw [b3, h4]
    interval_cases i <;> simp [partner]
  · intro R i j hi hj
    unfold amp
    rw [b4, soc_amp h5 R i j hi hj, soc_amp h5 R _ _ (partner_lt (n := 2) hi) (partner_lt (n := 2) hj)]
    exact tr_blockSum (n := 2) _ (soc_tr q) R i j hi hj

end Verif.Props

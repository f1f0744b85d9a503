import Verif.Proof.SampleHam
import Mathlib.Tactic.LinearCombination
import Mathlib.Analysis.Complex.Trigonometric

/-! # Properties of the Hamiltonian of a sample: C29 - C32 -/

namespace Verif.Props

open Sample

section Rescale

variable {Λ : Type*} {H : HashFns ℝ ℂ Λ} {HS : SCHash ℝ ℂ Λ}

open Classical in
/-- What a call to `rescale_ham()` without argument does to initialised arrays. -/
theorem rescale_auto {hp hp' : SCHeap ℝ ℂ Λ} {s s' : Sample ℝ ℂ} {eng : List ℝ} {o : SCell.HopOut ℝ ℂ}
    (he : s.eng = some eng) (ho : s.hop = some o)
    (h : rescaleHam getRescale (fun x : ℝ => (x : ℂ)) H HS hp s none = (hp', s', .ok ())) :
    s' = { s with eng := some (eng.map (· * (s.rescale / getRescale eng o.terms))),
                  hop := some ⟨o.terms.map (fun t => { t with v := t.v * ((s.rescale / getRescale eng o.terms : ℝ) : ℂ) }), o.idxFloat⟩,
                  rescale := getRescale eng o.terms } := by
  unfold rescaleHam initEng Sample.initHop at h
  simp only [he, ho, Option.isNone_some, Bool.false_eq_true, or_self, if_false] at h
  split_ifs at h with hc
  · simp at h
  · simp only [Prod.mk.injEq, and_true] at h
    exact h.2.symm

open Classical in
/-- **C29 (partial).** Take a sample which is not rescaled, with orbital energies that are not
negative.  If the automatic factor is not zero, then after `rescale_ham()` every eigenvalue of the
Hamiltonian `diag(e) + T + Tᴴ` of the stored arrays lies in `[-1, 1]`.  Missing: negative
energies (`C29_negative_energies`) and a second call (`C29_second_call`). -/
theorem C29_bound_partial {hp hp' : SCHeap ℝ ℂ Λ} {s s' : Sample ℝ ℂ} {eng : List ℝ} {o : SCell.HopOut ℝ ℂ}
    (he : s.eng = some eng) (ho : s.hop = some o) (hs : s.rescale = 1)
    (hr : TermsInRange eng.length o.terms) (hpos : ∀ e ∈ eng, 0 ≤ e) (hne : getRescale eng o.terms ≠ 0)
    (h : rescaleHam getRescale (fun x : ℝ => (x : ℂ)) H HS hp s none = (hp', s', .ok ())) :
    ∃ eng' o', s'.eng = some eng' ∧ s'.hop = some o' ∧
      ∀ lam, IsEigenvalue eng.length (hamSpec eng' o'.terms) lam → ‖lam‖ ≤ 1 := by
  rw [rescale_auto he ho h]
  refine ⟨_, _, rfl, rfl, ?_⟩
  intro lam hl
  have hge : ∀ a : ℤ, 0 ≤ a → a < eng.length → (eng[a.toNat]?).getD 0 + touch o.terms a ≤ getRescale eng o.terms := by
    intro a h0 h1
    rw [← hamSum_eq eng o.terms h0 h1]
    refine le_npMax _ (List.mem_map.2 ⟨a.toNat, List.mem_range.2 (by omega), ?_⟩)
    rw [Int.toNat_of_nonneg h0]
  have htouch : ∀ a, 0 ≤ touch o.terms a := by
    intro a
    unfold touch
    refine add_nonneg (List.sum_nonneg ?_) (List.sum_nonneg ?_) <;>
    · intro x hx
      obtain ⟨t, -, rfl⟩ := List.mem_map.1 hx
      exact norm_nonneg _
  have hen : ∀ a : ℕ, 0 ≤ (eng[a]?).getD 0 := by
    intro a
    rcases Nat.lt_or_ge a eng.length with h | h
    · rw [List.getElem?_eq_getElem h]; exact hpos _ (List.getElem_mem h)
    · rw [List.getElem?_eq_none h]; simp
  have hf : 0 < getRescale eng o.terms := by
    refine lt_of_le_of_ne ?_ (Ne.symm hne)
    rcases Nat.eq_zero_or_pos eng.length with hz | hz
    · unfold getRescale; rw [hz]; simp [npMax]
    · have := hge 0 le_rfl (by omega)
      have h2 := hen 0
      have h3 := htouch 0
      simp only [Int.toNat_zero] at this
      linarith
  rw [hs] at hl
  refine eigen_bound (by simp) (hr := ?_) ?_ hl
  · intro t ht
    obtain ⟨u, hu, rfl⟩ := List.mem_map.1 ht
    exact hr u hu
  · intro a h0 h1
    have hsc := hamSum_eq (eng.map (· * (1 / getRescale eng o.terms)))
      (o.terms.map fun t => { t with v := t.v * ((1 / getRescale eng o.terms : ℝ) : ℂ) }) h0 (by simpa using h1)
    have hg := getRescale_scale eng o.terms (c := 1 / getRescale eng o.terms) (by positivity)
    rw [mul_one_div, div_self hne] at hg
    have hle : hamSum (eng.map (· * (1 / getRescale eng o.terms)))
      (o.terms.map fun t => { t with v := t.v * ((1 / getRescale eng o.terms : ℝ) : ℂ) }) a ≤ 1 := by
      refine le_trans (le_npMax _ (List.mem_map.2 ⟨a.toNat, List.mem_range.2 (by simp; omega), ?_⟩)) (le_of_eq hg)
      rw [Int.toNat_of_nonneg h0]
    rw [hsc] at hle
    rw [abs_of_nonneg]
    · exact hle
    · rw [List.getElem?_map]
      cases hx : eng[a.toNat]? with
      | none => simp
      | some e =>
        have := hen a.toNat
        rw [hx] at this
        simp only [Option.map_some, Option.getD_some] at this ⊢
        positivity

/-- **C29 fails** for negative energies: two sites of energy -5 coupled by 1 give the factor -4, and
the rescaled Hamiltonian has the eigenvalue 3/2. -/
theorem C29_negative_energies :
    getRescale [-5, -5] [⟨0, 1, 1, 0⟩] = -4 ∧
    IsEigenvalue 2 (hamSpec ([-5, -5].map (· * (1 / getRescale [-5, -5] [⟨0, 1, 1, 0⟩])))
      (([⟨0, 1, 1, 0⟩] : List (SCHop ℝ ℂ)).map fun t => { t with v := t.v * ((1 / getRescale [-5, -5] [⟨0, 1, 1, 0⟩] : ℝ) : ℂ) }))
      (3 / 2) := by
  have h : getRescale [-5, -5] [⟨0, 1, 1, 0⟩] = -4 := by
    unfold getRescale
    have h0 := hamSum_eq [-5, -5] [⟨0, 1, 1, 0⟩] (a := 0) le_rfl (by simp)
    have h1 := hamSum_eq [-5, -5] [⟨0, 1, 1, 0⟩] (a := 1) (by norm_num) (by simp)
    have : ((List.range [(-5 : ℝ), -5].length).map fun k : ℕ => hamSum [-5, -5] [⟨0, 1, 1, 0⟩] k) = [-4, -4] := by
      simp only [List.length_cons, List.length_nil, List.range_succ, List.range_zero, List.map_append, List.map_cons,
        List.map_nil, List.nil_append, List.cons_append]
      push_cast
      rw [h0, h1]
      simp [touch]
      norm_num
    rw [this]
    simp [npMax]
  refine ⟨h, ?_⟩
  rw [h]
  refine ⟨![1, -1], by intro hc; have := congrFun hc 0; simp at this, ?_⟩
  intro a
  fin_cases a <;> simp [Fin.sum_univ_two, hamSpec, engMat, hopMat, map_ofNat] <;> norm_num

open Classical in
/-- **C29 fails** for a second call: calling `rescale_ham()` again restores the original
arrays and the factor one, whatever their spectrum. -/
theorem C29_second_call {hp hp' hp'' : SCHeap ℝ ℂ Λ} {s s' s'' : Sample ℝ ℂ} {eng : List ℝ} {o : SCell.HopOut ℝ ℂ}
    (he : s.eng = some eng) (ho : s.hop = some o) (hs : s.rescale = 1) (hf : 0 < getRescale eng o.terms)
    (h : rescaleHam getRescale (fun x : ℝ => (x : ℂ)) H HS hp s none = (hp', s', .ok ()))
    (h2 : rescaleHam getRescale (fun x : ℝ => (x : ℂ)) H HS hp' s' none = (hp'', s'', .ok ())) :
    s''.eng = some eng ∧ s''.hop = some o ∧ s''.rescale = 1 := by
  have e1 := rescale_auto he ho h
  rw [hs] at e1
  have e2 := rescale_auto (by rw [e1]) (by rw [e1]) h2
  have hg := getRescale_scale eng o.terms (c := 1 / getRescale eng o.terms) (by positivity)
  rw [mul_one_div, div_self hf.ne'] at hg
  rw [e2]
  simp only
  rw [hg]
  have hr : s'.rescale = getRescale eng o.terms := by rw [e1]
  rw [hr]
  refine ⟨?_, ?_, rfl⟩
  · rw [List.map_map]
    congr 1
    conv_rhs => rw [← List.map_id eng]
    apply List.map_congr_left
    intro x _
    simp only [Function.comp, id]
    field_simp
  · rw [List.map_map]
    congr 1
    rcases o with ⟨ts, b⟩
    congr 1
    conv_rhs => rw [← List.map_id ts]
    apply List.map_congr_left
    intro x _
    rcases x with ⟨i, j, v, dr⟩
    simp only [Function.comp, id]
    congr 1
    simp only at hf
    rw [mul_assoc, ← Complex.ofReal_mul]
    have : (1 / getRescale eng ts) * (getRescale eng ts / 1) = 1 := by field_simp
    rw [this]; simp

end Rescale

/-! ### C30: magnetic field -/

/-- **C30 (moduli, additivity).** A field changes neither the ends, displacements nor moduli of the
terms; two successive fields in one gauge add up, and no field is the identity. -/
theorem C30_modulus_additive (gauge : ℤ) (B B' : ℝ) (pos : ℤ → Vec3 ℝ) (hops : List (SCHop ℝ ℂ)) :
    List.Forall₂ (fun a b => a.i = b.i ∧ a.j = b.j ∧ a.dr = b.dr ∧ ‖a.v‖ = ‖b.v‖) (setMagField gauge B pos hops) hops ∧
    setMagField gauge B' pos (setMagField gauge B pos hops) = setMagField gauge (B + B') pos hops ∧
    setMagField gauge 0 pos hops = hops := by
  have hph : ∀ (a b d : Vec3 ℝ), magPhase gauge (B + B') a b d = magPhase gauge B a b d + magPhase gauge B' a b d := by
    intro a b d; unfold magPhase; split_ifs <;> ring
  have hz : ∀ (a b d : Vec3 ℝ), magPhase gauge 0 a b d = 0 := by
    intro a b d; unfold magPhase; split_ifs <;> ring
  refine ⟨?_, ?_, ?_⟩
  · unfold setMagField
    rw [List.forall₂_map_left_iff]
    refine List.forall₂_same.2 fun h _ => ⟨rfl, rfl, rfl, ?_⟩
    simp only [norm_mul, eiPhase_eq_exp, Complex.norm_exp_ofReal_mul_I, mul_one]
  · unfold setMagField
    rw [List.map_map]
    apply List.map_congr_left
    intro h _
    simp only [Function.comp]
    rw [hph, eiPhase_add, mul_assoc]
  · unfold setMagField
    conv_rhs => rw [← List.map_id hops]
    apply List.map_congr_left
    intro h _
    simp [hz, eiPhase_zero]

/-- Value of a term after the field. -/
theorem setMagField_get (gauge : ℤ) (B : ℝ) (pos : ℤ → Vec3 ℝ) (hops : List (SCHop ℝ ℂ)) (k : ℕ) :
    (setMagField gauge B pos hops)[k]? =
      hops[k]?.map fun h => { h with v := h.v * eiPhase (magPhase gauge B (pos h.i) (pos h.j) h.dr) } := by
  unfold setMagField; rw [List.getElem?_map]

/-- Walks in which the phase of each step is a sum of a part proportional to the shoelace term and
the difference of a function of the end points. -/
theorem walkProd_mag (gauge : ℤ) (B c : ℝ) (g : Vec3 ℝ → ℝ) (pos : ℤ → Vec3 ℝ) (hops : List (SCHop ℝ ℂ))
    (hg : ∀ p q : Vec3 ℝ, ∀ d : Vec3 ℝ, (∀ x, d x = q x - p x) →
      magPhase gauge B p q d = c * ((p 0 * q 1 - q 0 * p 1) / 2) + (g q - g p)) :
    ∀ (w : Walk) (a b : ℤ), IsWalk pos hops w a b →
      walkProd (setMagField gauge B pos hops) w =
        eiPhase (c * walkArea pos hops w + (g (pos b) - g (pos a))) * walkProd hops w := by
  intro w
  induction w with
  | nil =>
    intro a b h
    simp only [IsWalk] at h
    subst h
    simp [walkProd, walkArea, eiPhase_zero]
  | cons q w ih =>
    intro a b h
    obtain ⟨k, fwd⟩ := q
    obtain ⟨h', hk, hd, ha, hw⟩ := h
    have hi := ih _ _ hw
    have e1 : walkProd (setMagField gauge B pos hops) ((k, fwd) :: w) =
        (if fwd then h'.v * eiPhase (magPhase gauge B (pos h'.i) (pos h'.j) h'.dr)
          else star (h'.v * eiPhase (magPhase gauge B (pos h'.i) (pos h'.j) h'.dr))) *
        walkProd (setMagField gauge B pos hops) w := by
      unfold walkProd
      rw [List.map_cons, List.prod_cons, setMagField_get, hk]
      rfl
    have e2 : walkProd hops ((k, fwd) :: w) = (if fwd then h'.v else star h'.v) * walkProd hops w := by
      unfold walkProd
      rw [List.map_cons, List.prod_cons, hk]
      rfl
    have e3 : walkArea pos hops ((k, fwd) :: w) =
        (let p := pos (if fwd then h'.i else h'.j); let r := pos (if fwd then h'.j else h'.i);
         (p 0 * r 1 - r 0 * p 1) / 2) + walkArea pos hops w := by
      unfold walkArea
      rw [List.map_cons, List.sum_cons, hk]
    rw [e1, e2, e3, hi, ha, hg (pos h'.i) (pos h'.j) h'.dr hd]
    cases fwd with
    | true =>
      simp only [if_true]
      rw [show c * ((pos h'.i 0 * pos h'.j 1 - pos h'.j 0 * pos h'.i 1) / 2 + walkArea pos hops w) +
          (g (pos b) - g (pos h'.i)) =
          (c * ((pos h'.i 0 * pos h'.j 1 - pos h'.j 0 * pos h'.i 1) / 2) + (g (pos h'.j) - g (pos h'.i))) +
          (c * walkArea pos hops w + (g (pos b) - g (pos h'.j))) by ring]
      rw [eiPhase_add (_ + _)]
      ring
    | false =>
      simp only [Bool.false_eq_true, if_false]
      rw [star_mul', ← eiPhase_neg]
      rw [show c * ((pos h'.j 0 * pos h'.i 1 - pos h'.i 0 * pos h'.j 1) / 2 + walkArea pos hops w) +
          (g (pos b) - g (pos h'.j)) =
          -(c * ((pos h'.i 0 * pos h'.j 1 - pos h'.j 0 * pos h'.i 1) / 2) + (g (pos h'.j) - g (pos h'.i))) +
          (c * walkArea pos hops w + (g (pos b) - g (pos h'.i))) by ring]
      rw [eiPhase_add (-_)]
      ring

/-- **C30 (flux, partial).** In gauges 0 and 1, the product of the hoppings along every closed walk
inside the sample is multiplied by `exp(-2 pi i B A / 4135.666734)`, where `A` is the signed
area enclosed by the walk in the xy plane: both gauges describe the same uniform field.  Missing:
gauge 2, which produces no flux (`C30_gauge2_no_flux`), and walks across periodic boundaries
(`C30_wrapping_walks`). -/
theorem C30_flux_partial {gauge : ℤ} (hg : gauge = 0 ∨ gauge = 1) (B : ℝ) (pos : ℤ → Vec3 ℝ)
    (hops : List (SCHop ℝ ℂ)) (w : Walk) (a : ℤ) (hw : IsWalk pos hops w a a) :
    walkProd (setMagField gauge B pos hops) w =
      Complex.exp (-2 * Real.pi * Complex.I * B * walkArea pos hops w / 4135.666734) * walkProd hops w := by
  have key : ∃ g : Vec3 ℝ → ℝ, ∀ p q : Vec3 ℝ, ∀ d : Vec3 ℝ, (∀ x, d x = q x - p x) →
      magPhase gauge B p q d = (-2 * magFactor * B) * ((p 0 * q 1 - q 0 * p 1) / 2) + (g q - g p) := by
    rcases hg with rfl | rfl
    · refine ⟨fun q => magFactor * B * (q 0 * q 1), fun p q d hd => ?_⟩
      unfold magPhase
      rw [if_pos rfl, hd 0]
      ring
    · refine ⟨fun q => -magFactor * B * (q 0 * q 1), fun p q d hd => ?_⟩
      unfold magPhase
      rw [if_neg (by norm_num), if_pos rfl, hd 1]
      ring
  obtain ⟨g, hg'⟩ := key
  rw [walkProd_mag gauge B _ g pos hops hg' w a a hw, sub_self, add_zero, eiPhase_eq_exp]
  congr 2
  unfold magFactor
  push_cast
  ring

/-- **C30 fails** in gauge 2: along every closed walk inside the sample the product of the
hoppings is unchanged, so there is no field at all. -/
theorem C30_gauge2_no_flux (B : ℝ) (pos : ℤ → Vec3 ℝ) (hops : List (SCHop ℝ ℂ)) (w : Walk) (a : ℤ)
    (hw : IsWalk pos hops w a a) :
    walkProd (setMagField 2 B pos hops) w = walkProd hops w := by
  have hg : ∀ p q : Vec3 ℝ, ∀ d : Vec3 ℝ, (∀ x, d x = q x - p x) →
      magPhase 2 B p q d = 0 * ((p 0 * q 1 - q 0 * p 1) / 2) +
        (magFactor * 0.5 * B * (q 0 ^ 2 - q 1 ^ 2) - magFactor * 0.5 * B * (p 0 ^ 2 - p 1 ^ 2)) := by
    intro p q d hd
    unfold magPhase
    rw [if_neg (by norm_num), if_neg (by norm_num), hd 0, hd 1]
    ring
  rw [walkProd_mag 2 B 0 (fun q => magFactor * 0.5 * B * (q 0 ^ 2 - q 1 ^ 2)) pos hops hg w a a hw]
  simp [eiPhase_zero]

/-- Corners of the unit square. -/
def squarePos : ℤ → Vec3 ℝ := fun k => if k = 0 then ![0, 0, 0] else if k = 1 then ![1, 0, 0] else
  if k = 2 then ![1, 1, 0] else ![0, 1, 0]

/-- Bonds around the unit square, the last two given against the walking direction. -/
def squareHops : List (SCHop ℝ ℂ) :=
  [⟨0, 1, 1, ![1, 0, 0]⟩, ⟨1, 2, 1, ![0, 1, 0]⟩, ⟨3, 2, 1, ![1, 0, 0]⟩, ⟨0, 3, 1, ![0, 1, 0]⟩]

/-- A concrete closed walk for C30, around the unit square, with area 1: half a flux quantum gives
the phase -1 in gauges 0 and 1 but 1 in gauge 2. -/
theorem C30_square :
    IsWalk squarePos squareHops [(0, true), (1, true), (2, false), (3, false)] 0 0 ∧
    walkArea squarePos squareHops [(0, true), (1, true), (2, false), (3, false)] = 1 ∧
    (∀ gauge : ℤ, gauge = 0 ∨ gauge = 1 →
      walkProd (setMagField gauge (4135.666734 / 2) squarePos squareHops)
        [(0, true), (1, true), (2, false), (3, false)] = -1) ∧
    walkProd (setMagField 2 (4135.666734 / 2) squarePos squareHops)
        [(0, true), (1, true), (2, false), (3, false)] = 1 := by
  have hw : IsWalk squarePos squareHops [(0, true), (1, true), (2, false), (3, false)] 0 0 := by
    simp only [IsWalk, squareHops]
    refine ⟨_, rfl, ?_, rfl, _, rfl, ?_, rfl, _, rfl, ?_, rfl, _, rfl, ?_, rfl, rfl⟩ <;>
    · intro x
      fin_cases x <;> simp [squarePos]
  have ha : walkArea squarePos squareHops [(0, true), (1, true), (2, false), (3, false)] = 1 := by
    simp [walkArea, squareHops, squarePos]; norm_num
  have hp : walkProd squareHops [(0, true), (1, true), (2, false), (3, false)] = 1 := by
    simp [walkProd, squareHops]
  refine ⟨hw, ha, ?_, ?_⟩
  · intro gauge hg
    rw [C30_flux_partial hg _ _ _ _ _ hw, ha, hp]
    have : (-2 * Real.pi * Complex.I * ((4135.666734 / 2 : ℝ) : ℂ) * ((1 : ℝ) : ℂ) / 4135.666734 : ℂ) =
        -(Real.pi * Complex.I) := by
      push_cast
      field_simp
    rw [this, Complex.exp_neg, Complex.exp_pi_mul_I]
    norm_num
  · rw [C30_gauge2_no_flux _ _ _ _ _ hw, hp]

/-- **C30 fails** for walks closed through a periodic boundary: a bond from an orbital to its own
image one lattice constant away gets a phase in gauge 0 and none in gauge 1. -/
theorem C30_wrapping_walks (B : ℝ) :
    (setMagField 0 B (fun _ => ![0, 1, 0]) [⟨0, 0, 1, ![1, 0, 0]⟩]).map SCHop.v = [eiPhase (2 * magFactor * B)] ∧
    (setMagField 1 B (fun _ => ![0, 1, 0]) [⟨0, 0, 1, ![1, 0, 0]⟩]).map SCHop.v = [1] := by
  constructor
  · simp only [setMagField, List.map_cons, List.map_nil, List.cons.injEq, and_true, magPhase]
    simp
    congr 1
    ring
  · simp [setMagField, magPhase, eiPhase_zero]

variable {Λ : Type*}

open Classical in
/-- **C30 (objects).** What a successful call to `set_magnetic_field` on a sample with arrays does:
only the hoppings change, as described by the other theorems, with the positions of the sample;
gauges other than 0, 1, 2 are rejected and change nothing. -/
theorem C30_objects {H : HashFns ℝ ℂ Λ} {HS : SCHash ℝ ℂ Λ} {hp : SCHeap ℝ ℂ Λ} {s : Sample ℝ ℂ} {B : ℝ} {gauge : ℤ}
    {pos : List (Vec3 ℝ)} {o : SCell.HopOut ℝ ℂ} (hpos : s.pos = some pos) (ho : s.hop = some o)
    (hi : o.idxFloat = false) :
    setMag H HS hp s B gauge = if gauge = 0 ∨ gauge = 1 ∨ gauge = 2
      then (hp, { s with hop := some ⟨setMagField gauge B (rowAt pos) o.terms, false⟩ }, .ok ())
      else (hp, s, .error .value) := by
  unfold setMag initPos Sample.initHop
  simp only [hpos, ho, hi, Option.isNone_some, Bool.false_eq_true, or_self, if_false]
  by_cases hg : gauge = 0 ∨ gauge = 1 ∨ gauge = 2
  · simp [hg, hpos, ho, hi]
  · simp [hg]

/-! ### C31: k-points -/

/-- **C31 (composition).** Two k-points in succession act like their sum; moduli, ends and
displacements are kept, and the zero k-point is the identity. -/
theorem C31_additive (hops : List (SCHop ℝ ℂ)) (k k' : Vec3 ℝ) :
    buildHopK (buildHopK hops k) k' = buildHopK hops (k + k') ∧
    List.Forall₂ (fun a b => a.i = b.i ∧ a.j = b.j ∧ a.dr = b.dr ∧ ‖a.v‖ = ‖b.v‖) (buildHopK hops k) hops ∧
    buildHopK hops 0 = hops := by
  refine ⟨?_, ?_, ?_⟩
  · unfold buildHopK
    rw [List.map_map]
    apply List.map_congr_left
    intro h _
    simp only [Function.comp, Pi.add_apply]
    rw [mul_assoc, ← eiPhase_add]
    congr 3
    ring
  · unfold buildHopK
    rw [List.forall₂_map_left_iff]
    refine List.forall₂_same.2 fun h _ => ⟨rfl, rfl, rfl, ?_⟩
    simp only [norm_mul, eiPhase_eq_exp, Complex.norm_exp_ofReal_mul_I, mul_one]
  · unfold buildHopK
    conv_rhs => rw [← List.map_id hops]
    apply List.map_congr_left
    intro h _
    simp [eiPhase_zero]

open Classical in
/-- **C31 (composition, objects).** On a sample, `set_k_point(k)` followed by `set_k_point(k')`
leaves the same state as `set_k_point(k + k')`. -/
theorem C31_objects {H : HashFns ℝ ℂ Λ} {HS : SCHash ℝ ℂ Λ} {hp hp1 hp2 hp3 : SCHeap ℝ ℂ Λ} {s s1 s2 s3 : Sample ℝ ℂ}
    {k k' : Vec3 ℝ} (h1 : setK H HS hp s k = (hp1, s1, .ok ())) (h2 : setK H HS hp1 s1 k' = (hp2, s2, .ok ()))
    (h3 : setK H HS hp s (k + k') = (hp3, s3, .ok ())) : s2 = s3 ∧ hp2 = hp3 := by
  unfold setK at h1 h2 h3
  rcases hi : Sample.initHop H HS hp s false with ⟨p, t, r⟩
  rw [hi] at h1 h3
  cases r with
  | error e => simp at h1
  | ok u =>
    simp only at h1 h3
    cases ho : t.hop with
    | none => rw [ho] at h1; simp at h1
    | some o =>
      cases hc : t.cells with
      | nil => rw [ho, hc] at h1; simp at h1
      | cons c cs =>
        rw [ho, hc] at h1 h3
        simp only at h1 h3
        cases hB : genReciprocal (scLatVec (p c).pc.lat (p c).dim) with
        | none => rw [hB] at h1; simp at h1
        | some M =>
          rw [hB] at h1 h3
          simp only [Prod.mk.injEq, and_true] at h1 h3
          obtain ⟨rfl, rfl⟩ := h1
          obtain ⟨rfl, rfl⟩ := h3
          simp only [Sample.initHop, Option.isNone_some, Bool.false_eq_true, or_self, if_false, hc, hB, Prod.mk.injEq,
            and_true] at h2
          obtain ⟨rfl, rfl⟩ := h2
          rw [(C31_additive _ _ _).1, ← Matrix.add_vecMul]
          exact ⟨rfl, rfl⟩

/-- **C31 (Hamiltonian).** For a nondegenerate lattice the dense and the sparse Hamiltonian of a sample
at k-point `k` are the same matrix, namely `rescale` times the Bloch matrix; it is Hermitian.  The
previous content of the dense matrix does not matter. -/
theorem C31_bloch {lat : Mat3 ℝ} (hlat : lat.det ≠ 0) (s : Sample ℝ ℂ) (eng : List ℝ) (o : SCell.HopOut ℝ ℂ)
    (k : Vec3 ℝ) (ham : ℤ → ℤ → ℂ) (r : SCHop ℝ ℂ → Vec3 ℝ)
    (hr : ∀ h ∈ o.terms, ∀ x, h.dr x = r h 0 * lat 0 x + r h 1 * lat 1 x + r h 2 * lat 2 x) :
    ∃ M : ℤ → ℤ → ℂ, setHamDense lat s eng o k 1 ham = some M ∧ setHamCsr lat s eng o k 1 = some M ∧
      (∀ a b, M a b = s.rescale * blochSpec eng o.terms r k a b) ∧ (∀ a b, M a b = star (M b a)) := by
  have hB := C36_reciprocal lat
  obtain ⟨B, hBe⟩ := Option.isSome_iff_exists.1 (hB.2.2 hlat)
  have hdot := hB.1 B hBe
  have hbl : ∀ a b, hamSpec eng (buildHopK o.terms (Matrix.vecMul k B)) a b = blochSpec eng o.terms r k a b := by
    have hh : ∀ a b, hopMat (buildHopK o.terms (Matrix.vecMul k B)) a b =
        ((o.terms.filter fun h => h.i = a ∧ h.j = b).map fun h =>
          h.v * Complex.exp (2 * Real.pi * Complex.I * (k 0 * r h 0 + k 1 * r h 1 + k 2 * r h 2))).sum := by
      intro a b
      unfold hopMat buildHopK
      rw [List.filter_map, List.map_map]
      refine congrArg List.sum ?_
      apply List.map_congr_left
      intro h hm
      have hx := hr h (List.mem_filter.1 hm).1
      simp only [Function.comp]
      rw [eiPhase_eq_exp]
      congr 2
      have e : h.dr 0 * Matrix.vecMul k B 0 + h.dr 1 * Matrix.vecMul k B 1 + h.dr 2 * Matrix.vecMul k B 2 =
          2 * Real.pi * (k 0 * r h 0 + k 1 * r h 1 + k 2 * r h 2) := by
        rw [hx 0, hx 1, hx 2]
        simp only [Matrix.vecMul, dotProduct, Fin.sum_univ_three] at hdot ⊢
        have d00 := hdot 0 0
        have d01 := hdot 0 1
        have d02 := hdot 0 2
        have d10 := hdot 1 0
        have d11 := hdot 1 1
        have d12 := hdot 1 2
        have d20 := hdot 2 0
        have d21 := hdot 2 1
        have d22 := hdot 2 2
        simp only [if_true, if_false, reduceCtorEq, zero_ne_one, one_ne_zero, Fin.isValue, Fin.reduceEq] at d00 d01 d02 d10 d11 d12 d20 d21 d22
        linear_combination (r h 0 * k 0) * d00 + (r h 0 * k 1) * d01 + (r h 0 * k 2) * d02 +
          (r h 1 * k 0) * d10 + (r h 1 * k 1) * d11 + (r h 1 * k 2) * d12 +
          (r h 2 * k 0) * d20 + (r h 2 * k 1) * d21 + (r h 2 * k 2) * d22
      rw [e]
      push_cast
      ring
    intro a b
    unfold hamSpec blochSpec
    rw [hh, hh]
  refine ⟨fun a b => hamSpec eng (buildHopK o.terms (Matrix.vecMul k B)) a b * (s.rescale : ℂ), ?_, ?_, ?_, ?_⟩
  · unfold setHamDense
    simp only [ne_eq, not_true_eq_false, if_false, hBe, mul_zero]
    rw [fillHam_eq]
  · unfold setHamCsr
    simp only [ne_eq, not_true_eq_false, if_false, hBe, hamCsr_eq]
  · intro a b; simp only [hbl]; ring
  · intro a b
    have hc : star (s.rescale : ℂ) = s.rescale := Complex.conj_ofReal _
    simp only [hamSpec, star_mul', star_add, star_star, hc]
    have : engMat eng a b = star (engMat eng b a) := by
      unfold engMat
      by_cases h : a = b
      · subst h
        by_cases h0 : 0 ≤ a <;> simp [h0]
      · simp [h, Ne.symm h]
    rw [this]
    ring

/-- A concrete case of C31: one orbital with a bond to its image along the first lattice vector. -/
example : ∃ M, setHamDense 1 ⟨[0], [], none, none, none, 2⟩ [3] ⟨[⟨0, 0, 1, ![1, 0, 0]⟩], false⟩ ![1/2, 0, 0] 1
    (fun _ _ => 7) = some M ∧ M 0 0 = 2 := by
  obtain ⟨M, h1, -, h3, -⟩ := C31_bloch (lat := 1) (by simp) ⟨[0], [], none, none, none, 2⟩ [3]
    ⟨[⟨0, 0, 1, ![1, 0, 0]⟩], false⟩ ![1/2, 0, 0] (fun _ _ => 7) (fun _ => ![1, 0, 0]) (by
      intro h hh x
      simp at hh
      subst hh
      fin_cases x <;> simp [Matrix.one_apply])
  refine ⟨M, h1, ?_⟩
  rw [h3]
  have e : (2 * (Real.pi : ℂ) * Complex.I * 2⁻¹) = Real.pi * Complex.I := by ring
  simp [blochSpec, engMat, e, Complex.exp_pi_mul_I]
  norm_num

/-! ### C32: saving and loading -/

section Files

variable {F E : Type*} [Field F] [Star E]

theorem zipTerms_eq (l : List (SCHop F E)) :
    zipTerms (l.map SCHop.i) (l.map SCHop.j) (l.map SCHop.v) (l.map SCHop.dr) = l := by
  induction l with
  | nil => rfl
  | cons h l ih => simp [zipTerms, ih]

/-- **C32 (partial).** Saving into an empty directory and loading into any sample gives that sample
the saved arrays and recorded factor; arrays which did not exist when saving are left alone.
Missing: directories with older files, see `C32_stale_files`. -/
theorem C32_round_trip_partial (s t : Sample F E) :
    (load t (save s Files.empty)).eng = s.eng.or t.eng ∧
    (load t (save s Files.empty)).pos = s.pos.or t.pos ∧
    (load t (save s Files.empty)).hop = s.hop.or t.hop ∧
    (load t (save s Files.empty)).rescale = (if s.hop = none then t.rescale else s.rescale) ∧
    (load t (save s Files.empty)).cells = t.cells ∧ (load t (save s Files.empty)).inters = t.inters := by
  rcases s with ⟨c, i, e, p, h, r⟩
  cases e <;> cases p <;> cases h <;> simp [load, save, Files.empty, zipTerms_eq]

/-- **C32 (arrays all present).** With all arrays present, whatever files the directory had, loading
restores all of them. -/
theorem C32_full {s t : Sample F E} {d : Files F E} (h1 : s.eng ≠ none) (h2 : s.pos ≠ none) (h3 : s.hop ≠ none) :
    load t (save s d) = { s with cells := t.cells, inters := t.inters } := by
  rcases s with ⟨c, i, e, p, h, r⟩
  cases e <;> cases p <;> cases h <;> simp_all [load, save, zipTerms_eq]

/-- **C32 fails** for a directory with older files: a sample without hoppings saved over an
earlier save with hoppings loads back with the hoppings and the factor of the earlier one. -/
theorem C32_stale_files {s1 s2 t : Sample F E} {o : SCell.HopOut F E} (h1 : s1.hop = some o) (h2 : s2.hop = none) :
    (load t (save s2 (save s1 Files.empty))).hop = some o ∧
    (load t (save s2 (save s1 Files.empty))).rescale = s1.rescale := by
  rcases s1 with ⟨c, i, e, p, h, r⟩
  rcases s2 with ⟨c', i', e', p', h', r'⟩
  simp only at h1 h2
  subst h1 h2
  cases e <;> cases p <;> cases e' <;> cases p' <;> simp [load, save, Files.empty, zipTerms_eq]

end Files
end Verif.Props

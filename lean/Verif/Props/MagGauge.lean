import Verif.Spec.MagGauge
import Verif.Props.SampleHam
import Verif.Props.Tbpm
import Mathlib.Algebra.FreeAlgebra

/-! # C127: the magnetic field does not depend on the gauge and on the origin

`c`, `c'` are the sparse matrices handed to the TBPM solver, `(FCsr.ofSample c).toMatrix` the Hamiltonian and
`((FCsr.ofSample c).current dr s).toMatrix` the current operators the solver makes of them. -/

namespace Verif

open Sample Tbpm Matrix

variable {n : ℕ}

theorem gauge_phase (x : ℝ) : Complex.exp (x * Complex.I) * Complex.exp (-x * Complex.I) = 1 := by
  rw [← Complex.exp_add]; simp

theorem GaugeBy.add {θ : Fin n → ℝ} {A B A' B' : Matrix (Fin n) (Fin n) ℂ} (h : GaugeBy θ A A') (k : GaugeBy θ B B') :
    GaugeBy θ (A + B) (A' + B') := by
  intro a b
  rw [Matrix.add_apply, Matrix.add_apply, h a b, k a b]
  ring

theorem GaugeBy.mul {θ : Fin n → ℝ} {A B A' B' : Matrix (Fin n) (Fin n) ℂ} (h : GaugeBy θ A A') (k : GaugeBy θ B B') :
    GaugeBy θ (A * B) (A' * B') := by
  intro a b
  rw [Matrix.mul_apply, Matrix.mul_apply, Finset.mul_sum, Finset.sum_mul]
  refine Finset.sum_congr rfl fun m _ => ?_
  rw [h a m, k m b]
  linear_combination (Complex.exp (-(θ a) * Complex.I) * A a m * B m b * Complex.exp (θ b * Complex.I)) * gauge_phase (θ m)

theorem GaugeBy.algebraMap (θ : Fin n → ℝ) (z : ℂ) :
    GaugeBy θ (algebraMap ℂ (Matrix (Fin n) (Fin n) ℂ) z) (algebraMap ℂ _ z) := by
  intro a b
  rw [Matrix.algebraMap_matrix_apply]
  split_ifs with h
  · subst h
    have := gauge_phase (θ a)
    simp only [Algebra.algebraMap_self, RingHom.id_apply]
    linear_combination (-z) * this
  · simp

theorem GaugeBy.diag {θ : Fin n → ℝ} {A B : Matrix (Fin n) (Fin n) ℂ} (h : GaugeBy θ A B) (a : Fin n) : B a a = A a a := by
  rw [h a a]
  linear_combination (A a a) * gauge_phase (θ a)

theorem GaugeBy.norm {θ : Fin n → ℝ} {A B : Matrix (Fin n) (Fin n) ℂ} (h : GaugeBy θ A B) (a b : Fin n) : ‖B a b‖ = ‖A a b‖ := by
  rw [h a b, norm_mul, norm_mul]
  have e1 : ‖Complex.exp (-(θ a) * Complex.I)‖ = 1 := by
    have := Complex.norm_exp_ofReal_mul_I (-(θ a))
    push_cast at this; exact this
  rw [e1, Complex.norm_exp_ofReal_mul_I]
  ring

theorem GaugeBy.charpoly {θ : Fin n → ℝ} {A B : Matrix (Fin n) (Fin n) ℂ} (h : GaugeBy θ A B) : B.charpoly = A.charpoly := by
  have hu : (Matrix.diagonal fun a => Complex.exp (θ a * Complex.I)) * (Matrix.diagonal fun a => Complex.exp (-(θ a) * Complex.I)) = 1 := by
    rw [Matrix.diagonal_mul_diagonal, ← Matrix.diagonal_one]
    congr 1
    funext a
    exact gauge_phase (θ a)
  have hu' := mul_eq_one_comm.1 hu
  let U : (Matrix (Fin n) (Fin n) ℂ)ˣ := ⟨_, _, hu', hu⟩
  have : B = U.val * A * U⁻¹.val := by
    ext a b
    show B a b = (((Matrix.diagonal fun a => Complex.exp (-(θ a) * Complex.I)) * A) *
      (Matrix.diagonal fun a => Complex.exp (θ a * Complex.I)) : Matrix (Fin n) (Fin n) ℂ) a b
    rw [Matrix.mul_diagonal, Matrix.diagonal_mul, h a b]
  rw [this, Matrix.coe_units_inv, Matrix.charpoly_units_conj]

/-- **C127 (observables).** Operators which differ by a change of gauge have the same spectra, and everything computed from them by
sums, products and numbers -- moments, time steps, Fermi operators, correlation functions of currents -- has the same trace, the
same diagonal (local densities) and the same moduli (transition probabilities). -/
theorem C127_observables {S : Type*} {θ : Fin n → ℝ} {M M' : S → Matrix (Fin n) (Fin n) ℂ} (h : ∀ s, GaugeBy θ (M s) (M' s)) :
    (∀ s, (M' s).charpoly = (M s).charpoly) ∧
    ∀ q : FreeAlgebra ℂ S,
      (∀ a, (FreeAlgebra.lift ℂ M' q) a a = (FreeAlgebra.lift ℂ M q) a a) ∧
      (∀ a b, ‖(FreeAlgebra.lift ℂ M' q) a b‖ = ‖(FreeAlgebra.lift ℂ M q) a b‖) ∧
      (FreeAlgebra.lift ℂ M' q).trace = (FreeAlgebra.lift ℂ M q).trace ∧
      (FreeAlgebra.lift ℂ M' q).charpoly = (FreeAlgebra.lift ℂ M q).charpoly := by
  refine ⟨fun s => (h s).charpoly, fun q => ?_⟩
  have key : GaugeBy θ (FreeAlgebra.lift ℂ M q) (FreeAlgebra.lift ℂ M' q) := by
    induction q using FreeAlgebra.induction with
    | grade0 r => rw [AlgHom.commutes, AlgHom.commutes]; exact GaugeBy.algebraMap θ r
    | grade1 s => rw [FreeAlgebra.lift_ι_apply, FreeAlgebra.lift_ι_apply]; exact h s
    | mul a b ha hb => rw [map_mul, map_mul]; exact ha.mul hb
    | add a b ha hb => rw [map_add, map_add]; exact ha.add hb
  refine ⟨key.diag, key.norm, ?_, key.charpoly⟩
  exact Finset.sum_congr rfl fun a _ => key.diag a

/-! ### Matrices of a sample whose terms get phases -/

variable {f f' : List ℤ → List ℕ} {junk : CsrEnt ℝ ℂ} {cutoff : ℝ} {eng : List ℝ} {hops hops' : List (SCHop ℝ ℂ)} {c c' : Csr ℝ ℂ}

theorem built_valid (hf : ArgsortOK f) (hf' : ArgsortOK f') (hh : TermsInRange eng.length hops)
    (hc : BuiltFrom f f' junk cutoff eng hops c) :
    c.Valid eng.length ∧ ∀ a b : Fin eng.length, c.mat (a : ℕ) (b : ℕ) =
      diagMat Complex.ofReal cutoff eng (a : ℕ) (b : ℕ) + hopMat hops (a : ℕ) (b : ℕ) + star (hopMat hops (b : ℕ) (a : ℕ)) := by
  obtain ⟨c0, h0, h1⟩ := hc
  have hv0 : c0.Valid eng.length := by
    rcases h0 with rfl | rfl
    · exact C25_fast_valid Complex.ofReal junk cutoff hh
    · exact C25_safe_valid hf Complex.ofReal junk cutoff hh
  have hm : ∀ a b : Fin eng.length, c0.mat (a : ℕ) (b : ℕ) =
      diagMat Complex.ofReal cutoff eng (a : ℕ) (b : ℕ) + hopMat hops (a : ℕ) (b : ℕ) + star (hopMat hops (b : ℕ) (a : ℕ)) := by
    intro a b
    have ha : (0 : ℤ) ≤ (a : ℕ) ∧ ((a : ℕ) : ℤ) < eng.length := ⟨by omega, by omega⟩
    rcases h0 with rfl | rfl
    · exact (C25_fast_matrix Complex.ofReal junk cutoff hh ha (b : ℕ)).1
    · exact (C25_safe_matrix hf Complex.ofReal junk cutoff hh ha (b : ℕ)).1
  rcases h1 with rfl | rfl
  · exact ⟨hv0, hm⟩
  · refine ⟨(C26_sort_col hf' hv0).2.1, fun a b => ?_⟩
    rw [(((C26_sort_col hf' hv0).2.2 a a.2).2.2 (b : ℕ)).1]
    exact hm a b

/-- The Hamiltonian and the current operators of the solver, from the terms. -/
theorem built_ops (hf : ArgsortOK f) (hf' : ArgsortOK f') (hh : TermsInRange eng.length hops)
    (hc : BuiltFrom f f' junk cutoff eng hops c) :
    (∀ a b, (FCsr.ofSample c).toMatrix eng.length a b =
      diagMat Complex.ofReal cutoff eng (a : ℕ) (b : ℕ) + hopMat hops (a : ℕ) (b : ℕ) + star (hopMat hops (b : ℕ) (a : ℕ))) ∧
    ∀ (s : ℝ) (y : Bool) a b,
      ((FCsr.ofSample c).current (fun k => if y then (c.ent k).dy else (c.ent k).dx) s).toMatrix eng.length a b =
        (s * Complex.I) *
          (((hops.filter fun h => h.i = (a : ℤ) ∧ h.j = (b : ℤ)).map fun h => h.v * (h.dr (if y then 1 else 0) : ℂ)).sum -
            star ((hops.filter fun h => h.i = (b : ℤ) ∧ h.j = (a : ℤ)).map fun h => h.v * (h.dr (if y then 1 else 0) : ℂ)).sum) := by
  obtain ⟨hv, hm⟩ := built_valid hf hf' hh hc
  refine ⟨fun a b => by rw [ofSample_matrix hv, hm], fun s y a b => ?_⟩
  obtain ⟨c0, h0, h1⟩ := hc
  have := (C84_current hf hf' junk cutoff hh h0 h1 s y).1
  rw [this]
  rfl

/-- Sums over the terms between two orbitals, when all of them get the same phase. -/
theorem phase_sum (ph : SCHop ℝ ℂ → ℝ) (θ : ℤ → ℝ) (w : SCHop ℝ ℂ → ℂ) (hops : List (SCHop ℝ ℂ))
    (hph : ∀ h ∈ hops, ph h = θ h.j - θ h.i) (hw : ∀ h z, w { h with v := h.v * z } = w h * z) (a b : ℤ) :
    (((hops.map fun h => { h with v := h.v * eiPhase (ph h) }).filter fun h => h.i = a ∧ h.j = b).map w).sum =
      eiPhase (θ b - θ a) * ((hops.filter fun h => h.i = a ∧ h.j = b).map w).sum := by
  induction hops with
  | nil => simp
  | cons h t ih =>
    have iht := ih fun h' hm => hph h' (List.mem_cons_of_mem _ hm)
    rw [List.map_cons]
    by_cases hab : h.i = a ∧ h.j = b
    · rw [List.filter_cons_of_pos (by simpa using hab), List.filter_cons_of_pos (by simpa using hab), List.map_cons, List.sum_cons, iht,
        List.map_cons, List.sum_cons, hw, hph h List.mem_cons_self, hab.1, hab.2]
      ring
    · rw [List.filter_cons_of_neg (by simpa using hab), List.filter_cons_of_neg (by simpa using hab), iht]

theorem inRange_phase (ph : SCHop ℝ ℂ → ℝ) (hh : TermsInRange eng.length hops) :
    TermsInRange eng.length (hops.map fun h => { h with v := h.v * eiPhase (ph h) }) := by
  intro h hm
  obtain ⟨h', hm', rfl⟩ := List.mem_map.1 hm
  exact hh h' hm'

/-- Terms with two families of phases whose difference is a difference of a function of the orbitals. -/
theorem phase_gauge (hf : ArgsortOK f) (hf' : ArgsortOK f') (hh : TermsInRange eng.length hops) (θ : ℤ → ℝ) (ph : SCHop ℝ ℂ → ℝ)
    (hph : ∀ h ∈ hops, ph h = θ h.j - θ h.i) (hc : BuiltFrom f f' junk cutoff eng hops c)
    (hc' : BuiltFrom f f' junk cutoff eng (hops.map fun h => { h with v := h.v * eiPhase (ph h) }) c') :
    GaugeBy (fun a : Fin eng.length => θ (a : ℕ)) ((FCsr.ofSample c).toMatrix eng.length) ((FCsr.ofSample c').toMatrix eng.length) ∧
    ∀ (s : ℝ) (y : Bool), GaugeBy (fun a : Fin eng.length => θ (a : ℕ))
      (((FCsr.ofSample c).current (fun k => if y then (c.ent k).dy else (c.ent k).dx) s).toMatrix eng.length)
      (((FCsr.ofSample c').current (fun k => if y then (c'.ent k).dy else (c'.ent k).dx) s).toMatrix eng.length) := by
  obtain ⟨o1, o2⟩ := built_ops hf hf' hh hc
  obtain ⟨p1, p2⟩ := built_ops hf hf' (inRange_phase ph hh) hc'
  have hexp : ∀ a b : ℤ, Complex.exp (-(θ a : ℂ) * Complex.I) * Complex.exp (θ b * Complex.I) = eiPhase (θ b - θ a) := by
    intro a b
    rw [eiPhase_eq_exp, ← Complex.exp_add]
    congr 1
    push_cast
    ring
  have hst : ∀ a b : ℤ, star (eiPhase (θ a - θ b)) = eiPhase (θ b - θ a) := by
    intro a b; rw [← eiPhase_neg]; congr 1; ring
  constructor
  · intro a b
    rw [o1, p1]
    have hs := fun a b => phase_sum ph θ SCHop.v hops hph (fun _ _ => rfl) a b
    have hM : ∀ a b, hopMat (hops.map fun h => { h with v := h.v * eiPhase (ph h) }) a b = eiPhase (θ b - θ a) * hopMat hops a b := hs
    rw [hM, hM, star_mul', hst]
    have hd : diagMat Complex.ofReal cutoff eng (a : ℕ) (b : ℕ) =
        eiPhase (θ (b : ℕ) - θ (a : ℕ)) * diagMat Complex.ofReal cutoff eng (a : ℕ) (b : ℕ) := by
      unfold diagMat
      split_ifs with h
      · rw [h.1, sub_self, eiPhase_zero, one_mul]
      · simp
    have he := hexp (a : ℕ) (b : ℕ)
    rw [← he] at hd ⊢
    linear_combination hd
  · intro s y a b
    rw [o2, p2]
    have hs := fun a b => phase_sum ph θ (fun h => h.v * (h.dr (if y then 1 else 0) : ℂ)) hops hph
      (fun _ _ => by simp only; ring) a b
    have he := hexp (a : ℕ) (b : ℕ)
    rw [hs, hs, star_mul', hst, ← he]
    ring

/-- The Hamiltonians and current operators of two sparse matrices differ by a change of gauge. -/
def SameUpToGauge (n : ℕ) (c c' : Csr ℝ ℂ) : Prop :=
  ∃ θ : Fin n → ℝ, GaugeBy θ ((FCsr.ofSample c).toMatrix n) ((FCsr.ofSample c').toMatrix n) ∧
    ∀ (s : ℝ) (y : Bool), GaugeBy θ
      (((FCsr.ofSample c).current (fun k => if y then (c.ent k).dy else (c.ent k).dx) s).toMatrix n)
      (((FCsr.ofSample c').current (fun k => if y then (c'.ent k).dy else (c'.ent k).dx) s).toMatrix n)

theorem mag_inRange (gauge : ℤ) (B : ℝ) (pos : ℤ → Vec3 ℝ) (hh : TermsInRange eng.length hops) :
    TermsInRange eng.length (setMagField gauge B pos hops) :=
  inRange_phase (fun h => magPhase gauge B (pos h.i) (pos h.j) h.dr) hh

/-- Two fields whose phases differ by a function of the orbitals. -/
theorem mag_gauge (hf : ArgsortOK f) (hf' : ArgsortOK f') (hh : TermsInRange eng.length hops) {g g' : ℤ} {B B' : ℝ}
    {pos pos' : ℤ → Vec3 ℝ} (θ : ℤ → ℝ)
    (hph : ∀ h ∈ hops, magPhase g' B' (pos' h.i) (pos' h.j) h.dr = magPhase g B (pos h.i) (pos h.j) h.dr + (θ h.j - θ h.i))
    (hc : BuiltFrom f f' junk cutoff eng (setMagField g B pos hops) c)
    (hc' : BuiltFrom f f' junk cutoff eng (setMagField g' B' pos' hops) c') : SameUpToGauge eng.length c c' := by
  have he : setMagField g' B' pos' hops =
      (setMagField g B pos hops).map fun h => { h with v := h.v * eiPhase (θ h.j - θ h.i) } := by
    unfold setMagField
    rw [List.map_map]
    apply List.map_congr_left
    intro h hm
    simp only [Function.comp]
    rw [hph h hm, eiPhase_add, mul_assoc]
  rw [he] at hc'
  exact ⟨_, phase_gauge hf hf' (mag_inRange g B pos hh) θ (fun h => θ h.j - θ h.i) (fun _ _ => rfl) hc hc'⟩

/-- **C127 (gauges).** In a sample which no term leaves, the vector potentials `(By, 0, 0)` and `(0, -Bx, 0)` give the same physics:
Hamiltonian and currents differ by a change of gauge, see `C127_observables`.
Missing: gauge 2, see `C127_gauge2`. -/
theorem C127_gauges_partial (hf : ArgsortOK f) (hf' : ArgsortOK f') (hh : TermsInRange eng.length hops) (B : ℝ) {pos : ℤ → Vec3 ℝ}
    (ho : OpenTerms pos hops) (hc : BuiltFrom f f' junk cutoff eng (setMagField 0 B pos hops) c)
    (hc' : BuiltFrom f f' junk cutoff eng (setMagField 1 B pos hops) c') : SameUpToGauge eng.length c c' := by
  refine mag_gauge hf hf' hh (fun a => -(2 * magFactor * B * (pos a 0 * pos a 1))) (fun h hm => ?_) hc hc'
  unfold magPhase
  rw [if_neg (by norm_num), if_pos rfl, if_pos rfl, ho h hm 0, ho h hm 1]
  ring

/-- **C127 fails** in gauge 2.  The vector potential used for gauge 2 is a pure gauge: the sample behaves as without field, whatever the
intensity. -/
theorem C127_gauge2 (hf : ArgsortOK f) (hf' : ArgsortOK f') (hh : TermsInRange eng.length hops) (B : ℝ) {pos : ℤ → Vec3 ℝ}
    (ho : OpenTerms pos hops) (hc : BuiltFrom f f' junk cutoff eng hops c)
    (hc' : BuiltFrom f f' junk cutoff eng (setMagField 2 B pos hops) c') : SameUpToGauge eng.length c c' := by
  have hz : setMagField 2 0 pos hops = hops := (Props.C30_modulus_additive 2 0 0 pos hops).2.2
  rw [← hz] at hc
  refine mag_gauge hf hf' hh (fun a => magFactor * 0.5 * B * (pos a 0 ^ 2 - pos a 1 ^ 2)) (fun h hm => ?_) hc hc'
  unfold magPhase
  rw [if_neg (by norm_num), if_neg (by norm_num), if_neg (by norm_num), if_neg (by norm_num), ho h hm 0, ho h hm 1]
  ring

/-- **C127 (origin).** In a sample which no term leaves, moving all orbitals by the same vector changes nothing but the gauge. -/
theorem C127_origin (hf : ArgsortOK f) (hf' : ArgsortOK f') (hh : TermsInRange eng.length hops) (B : ℝ) {g : ℤ}
    (hg : g = 0 ∨ g = 1) {pos : ℤ → Vec3 ℝ} (t : Vec3 ℝ) (ho : OpenTerms pos hops)
    (hc : BuiltFrom f f' junk cutoff eng (setMagField g B pos hops) c)
    (hc' : BuiltFrom f f' junk cutoff eng (setMagField g B (fun a => pos a + t) hops) c') : SameUpToGauge eng.length c c' := by
  rcases hg with rfl | rfl
  · refine mag_gauge hf hf' hh (fun a => 2 * magFactor * B * t 1 * pos a 0) (fun h hm => ?_) hc hc'
    unfold magPhase
    rw [if_pos rfl, if_pos rfl, ho h hm 0]
    simp only [Pi.add_apply]
    ring
  · refine mag_gauge hf hf' hh (fun a => -(2 * magFactor * B * t 0 * pos a 1)) (fun h hm => ?_) hc hc'
    unfold magPhase
    rw [if_neg (by norm_num), if_pos rfl, if_neg (by norm_num), if_pos rfl, ho h hm 1]
    simp only [Pi.add_apply]
    ring

/-- **C127 (origin of a periodic sample).** For any terms, moving the orbitals by `t` acts like `set_k_point`, with a Cartesian
wave vector of `2 pi B t / Φ₀` along the direction of the vector potential. -/
theorem C127_origin_k (B : ℝ) (pos : ℤ → Vec3 ℝ) (hops : List (SCHop ℝ ℂ)) (t : Vec3 ℝ) :
    setMagField 0 B (fun a => pos a + t) hops =
      buildHopK (setMagField 0 B pos hops) ![2 * Real.pi * B * t 1 / 4135.666734, 0, 0] ∧
    setMagField 1 B (fun a => pos a + t) hops =
      buildHopK (setMagField 1 B pos hops) ![0, -(2 * Real.pi * B * t 0 / 4135.666734), 0] := by
  constructor <;>
  · unfold setMagField buildHopK
    rw [List.map_map]
    apply List.map_congr_left
    intro h _
    simp only [Function.comp]
    rw [mul_assoc, ← eiPhase_add]
    congr 3
    simp only [magPhase, magFactor, Pi.add_apply, Matrix.cons_val_zero, Matrix.cons_val_one, Matrix.cons_val]
    norm_num
    ring

/-! ### Reversal of the field -/

theorem star_sum_terms (w : SCHop ℝ ℂ → ℂ) (hw : ∀ h, w { h with v := star h.v } = star (w h)) (l : List (SCHop ℝ ℂ)) (a b : ℤ) :
    (((l.map fun h => { h with v := star h.v }).filter fun h => h.i = a ∧ h.j = b).map w).sum =
      star ((l.filter fun h => h.i = a ∧ h.j = b).map w).sum := by
  induction l with
  | nil => simp
  | cons h t ih =>
    rw [List.map_cons]
    by_cases hab : h.i = a ∧ h.j = b
    · rw [List.filter_cons_of_pos (by simpa using hab), List.filter_cons_of_pos (by simpa using hab), List.map_cons, List.sum_cons, ih,
        List.map_cons, List.sum_cons, hw, star_add]
    · rw [List.filter_cons_of_neg (by simpa using hab), List.filter_cons_of_neg (by simpa using hab), ih]

/-- **C127 (reversed field).** With real hopping parameters, reversing the field transposes the Hamiltonian and the current operators,
the latter with a sign.  So the spectrum is the same, and the correlation functions of the currents obey Onsager's relation: the
response of `a` to `b` in the field `-B` is that of `b` to `a` in the field `B`.  This holds for any gauge and any terms. -/
theorem C127_reversal (hf : ArgsortOK f) (hf' : ArgsortOK f') (hh : TermsInRange eng.length hops) (B : ℝ) (g : ℤ) (pos : ℤ → Vec3 ℝ)
    (hr : ∀ h ∈ hops, star h.v = h.v) (hc : BuiltFrom f f' junk cutoff eng (setMagField g B pos hops) c)
    (hc' : BuiltFrom f f' junk cutoff eng (setMagField g (-B) pos hops) c') :
    let H := (FCsr.ofSample c).toMatrix eng.length
    let H' := (FCsr.ofSample c').toMatrix eng.length
    let J : ℝ → Bool → Matrix (Fin eng.length) (Fin eng.length) ℂ := fun s y =>
      ((FCsr.ofSample c).current (fun k => if y then (c.ent k).dy else (c.ent k).dx) s).toMatrix eng.length
    let J' : ℝ → Bool → Matrix (Fin eng.length) (Fin eng.length) ℂ := fun s y =>
      ((FCsr.ofSample c').current (fun k => if y then (c'.ent k).dy else (c'.ent k).dx) s).toMatrix eng.length
    H' = Hᵀ ∧ (∀ s y, J' s y = -(J s y)ᵀ) ∧ H'.charpoly = H.charpoly ∧
    ∀ (s : ℝ) (a b : Bool) (p q : Polynomial ℂ),
      (J' s a * Polynomial.aeval H' p * J' s b * Polynomial.aeval H' q).trace =
        (J s b * Polynomial.aeval H p * J s a * Polynomial.aeval H q).trace := by
  intro H H' J J'
  obtain ⟨o1, o2⟩ := built_ops hf hf' (mag_inRange g B pos hh) hc
  obtain ⟨p1, p2⟩ := built_ops hf hf' (mag_inRange g (-B) pos hh) hc'
  have hm : setMagField g (-B) pos hops = (setMagField g B pos hops).map fun h => { h with v := star h.v } := by
    unfold setMagField
    rw [List.map_map]
    apply List.map_congr_left
    intro h hm
    simp only [Function.comp]
    rw [star_mul', hr h hm, ← eiPhase_neg]
    congr 3
    unfold magPhase
    split_ifs <;> ring
  rw [hm] at p1 p2
  have hT : ∀ a b, hopMat ((setMagField g B pos hops).map fun h => { h with v := star h.v }) a b = star (hopMat (setMagField g B pos hops) a b) :=
    fun a b => star_sum_terms SCHop.v (fun _ => rfl) _ a b
  have hH : H' = Hᵀ := by
    ext a b
    rw [Matrix.transpose_apply]
    show (FCsr.ofSample c').toMatrix eng.length a b = (FCsr.ofSample c).toMatrix eng.length b a
    rw [o1, p1, hT, hT, star_star]
    have hd : diagMat Complex.ofReal cutoff eng ((a : ℕ) : ℤ) ((b : ℕ) : ℤ) = diagMat Complex.ofReal cutoff eng ((b : ℕ) : ℤ) ((a : ℕ) : ℤ) := by
      by_cases h : a = b
      · rw [h]
      · have h1 : ((a : ℕ) : ℤ) ≠ ((b : ℕ) : ℤ) := by intro e; exact h (Fin.ext (by omega))
        unfold diagMat
        rw [if_neg (fun e => h1 e.1), if_neg (fun e => h1 e.1.symm)]
    rw [hd]
    ring
  have hJ : ∀ s y, J' s y = -(J s y)ᵀ := by
    intro s y
    ext a b
    rw [Matrix.neg_apply, Matrix.transpose_apply]
    have e1 : J s y b a = _ := o2 s y b a
    have e2 : J' s y a b = _ := p2 s y a b
    have hS := fun a b => star_sum_terms (fun h => h.v * (h.dr (if y then 1 else 0) : ℂ))
      (fun h => by simp only [star_mul', Complex.star_def, Complex.conj_ofReal]) (setMagField g B pos hops) a b
    rw [e1, e2, hS, hS, star_star]
    ring
  refine ⟨hH, hJ, by rw [hH, Matrix.charpoly_transpose], fun s a b p q => ?_⟩
  have hp : ∀ r : Polynomial ℂ, Polynomial.aeval H' r = (Polynomial.aeval H r)ᵀ := by
    intro r
    induction r using Polynomial.induction_on' with
    | add x y hx hy => rw [map_add, map_add, hx, hy, Matrix.transpose_add]
    | monomial k z =>
      rw [Polynomial.aeval_monomial, Polynomial.aeval_monomial, hH, ← Matrix.transpose_pow, Matrix.transpose_mul, Matrix.algebraMap_eq_diagonal,
        Matrix.diagonal_transpose]
      have : ∀ M : Matrix (Fin eng.length) (Fin eng.length) ℂ, Matrix.diagonal (algebraMap ℂ (Fin eng.length → ℂ) z) * M =
          M * Matrix.diagonal (algebraMap ℂ (Fin eng.length → ℂ) z) := by
        intro M
        rw [← Matrix.algebraMap_eq_diagonal]
        exact Algebra.commutes z M
      rw [this]
  rw [hp, hp, hJ, hJ]
  have e : -(J s a)ᵀ * (Polynomial.aeval H p)ᵀ * -(J s b)ᵀ * (Polynomial.aeval H q)ᵀ =
      (Polynomial.aeval H q * (J s b * Polynomial.aeval H p * J s a))ᵀ := by
    simp only [Matrix.transpose_mul, Matrix.neg_mul, Matrix.mul_neg, neg_neg, Matrix.mul_assoc]
  rw [e, Matrix.trace_transpose, Matrix.trace_mul_comm]

/-! ### Samples periodic in one direction -/

theorem lifted_prod (B : ℝ) {g : ℤ} (hg : g = 0 ∨ g = 1) {pos : ℤ → Vec3 ℝ} {hops : List (SCHop ℝ ℂ)}
    (hd : ∀ h ∈ hops, h.dr (if g = 0 then 1 else 0) = pos h.j (if g = 0 then 1 else 0) - pos h.i (if g = 0 then 1 else 0)) :
    ∀ (w : Walk) (a b : ℤ) (p q : ℝ × ℝ), LiftedWalk hops w a b p q →
      (if g = 0 then p.2 = pos a 1 else p.1 = pos a 0) →
      walkProd (setMagField g B pos hops) w =
        eiPhase (-magFactor * B * liftedArea2 hops w p + (if g = 0 then 1 else -1) * magFactor * B * (q.1 * q.2 - p.1 * p.2)) *
          walkProd hops w := by
  intro w
  induction w with
  | nil =>
    intro a b p q h _
    obtain ⟨-, rfl⟩ := h
    simp [walkProd, liftedArea2, eiPhase_zero]
  | cons st w ih =>
    intro a b p q h hp
    obtain ⟨k, fwd⟩ := st
    obtain ⟨h', hk, ha, hw⟩ := h
    have hmem : h' ∈ hops := List.mem_of_getElem? hk
    have hdr := hd h' hmem
    have e1 : walkProd (setMagField g B pos hops) ((k, fwd) :: w) =
        (if fwd then h'.v * eiPhase (magPhase g B (pos h'.i) (pos h'.j) h'.dr)
          else star (h'.v * eiPhase (magPhase g B (pos h'.i) (pos h'.j) h'.dr))) * walkProd (setMagField g B pos hops) w := by
      unfold walkProd
      rw [List.map_cons, List.prod_cons, Props.setMagField_get, hk]
      rfl
    have e2 : walkProd hops ((k, fwd) :: w) = (if fwd then h'.v else star h'.v) * walkProd hops w := by
      unfold walkProd
      rw [List.map_cons, List.prod_cons, hk]
      rfl
    set r : ℝ × ℝ := if fwd then (p.1 + h'.dr 0, p.2 + h'.dr 1) else (p.1 - h'.dr 0, p.2 - h'.dr 1) with hr
    have e3 : liftedArea2 hops ((k, fwd) :: w) p = (p.1 * r.2 - r.1 * p.2) + liftedArea2 hops w r := by
      rw [liftedArea2, hk]
    have hstart : (if g = 0 then r.2 = pos (if fwd then h'.j else h'.i) 1 else r.1 = pos (if fwd then h'.j else h'.i) 0) := by
      rcases hg with rfl | rfl
      · simp only [if_true] at hp hdr ⊢
        cases fwd <;> simp only [if_true, Bool.false_eq_true, if_false] at ha hr ⊢ <;> rw [hr, hp, ha, hdr] <;> ring
      · simp only [one_ne_zero, if_false] at hp hdr ⊢
        cases fwd <;> simp only [if_true, Bool.false_eq_true, if_false] at ha hr ⊢ <;> rw [hr, hp, ha, hdr] <;> ring
    rw [e1, e2, e3, ih _ _ _ _ hw hstart]
    have hphase : (if fwd then magPhase g B (pos h'.i) (pos h'.j) h'.dr else -magPhase g B (pos h'.i) (pos h'.j) h'.dr) =
        -magFactor * B * (p.1 * r.2 - r.1 * p.2) + (if g = 0 then 1 else -1) * magFactor * B * (r.1 * r.2 - p.1 * p.2) := by
      unfold magPhase
      rcases hg with rfl | rfl
      · simp only [if_true] at hp hdr ⊢
        cases fwd <;> simp only [if_true, Bool.false_eq_true, if_false] at ha hr ⊢ <;> subst ha <;> rw [hr] <;> simp only <;>
          rw [hdr, hp] <;> ring
      · simp only [one_ne_zero, if_false, if_true] at hp hdr ⊢
        cases fwd <;> simp only [if_true, Bool.false_eq_true, if_false] at ha hr ⊢ <;> subst ha <;> rw [hr] <;> simp only <;>
          rw [hdr, hp] <;> ring
    have hsplit : eiPhase (-magFactor * B * (p.1 * r.2 - r.1 * p.2 + liftedArea2 hops w r) +
          (if g = 0 then 1 else -1) * magFactor * B * (q.1 * q.2 - p.1 * p.2)) =
        eiPhase (if fwd then magPhase g B (pos h'.i) (pos h'.j) h'.dr else -magPhase g B (pos h'.i) (pos h'.j) h'.dr) *
          eiPhase (-magFactor * B * liftedArea2 hops w r + (if g = 0 then 1 else -1) * magFactor * B * (q.1 * q.2 - r.1 * r.2)) := by
      rw [← eiPhase_add, hphase]
      congr 1
      ring
    rw [hsplit]
    cases fwd
    · simp only [Bool.false_eq_true, if_false]
      rw [star_mul', ← eiPhase_neg]
      ring
    · simp only [if_true]
      ring

/-- **C127 (ribbons, partial).** In a sample whose terms leave it only along `x`, gauge 0 gives every closed path the phase of the flux
through it, also for paths across the boundary: if the displacements along a closed walk add up to zero, the product of the
hoppings gets the phase `exp(-2 pi i B A / Φ₀)` with `A` the signed area in `nm²`.  Likewise gauge 1 for terms which leave along
`y`.  Missing: the other gauge, see `C127_ribbon_wrong_gauge`. -/
theorem C127_ribbon_partial (B : ℝ) {g : ℤ} (hg : g = 0 ∨ g = 1) {pos : ℤ → Vec3 ℝ} {hops : List (SCHop ℝ ℂ)}
    (hd : ∀ h ∈ hops, h.dr (if g = 0 then 1 else 0) = pos h.j (if g = 0 then 1 else 0) - pos h.i (if g = 0 then 1 else 0))
    (w : Walk) (a : ℤ) (hw : LiftedWalk hops w a a (pos a 0, pos a 1) (pos a 0, pos a 1)) :
    walkProd (setMagField g B pos hops) w =
      Complex.exp (-2 * Real.pi * Complex.I * B * (liftedArea2 hops w (pos a 0, pos a 1) / 2 : ℝ) / 4135.666734) * walkProd hops w := by
  rw [lifted_prod B hg hd w a a _ _ hw (by split_ifs <;> rfl), sub_self, mul_zero, add_zero, eiPhase_eq_exp]
  congr 2
  unfold magFactor
  push_cast
  ring

/-- A ladder periodic along `x`: two orbitals at heights 0 and 1, one unit cell. -/
def ladderPos : ℤ → Vec3 ℝ := fun k => if k = 0 then ![0, 0, 0] else ![0, 1, 0]
@[inherit_doc ladderPos]
def ladderHops : List (SCHop ℝ ℂ) := [⟨0, 0, 1, ![1, 0, 0]⟩, ⟨1, 1, 1, ![1, 0, 0]⟩, ⟨0, 1, 1, ![0, 1, 0]⟩]
/-- Along the lower leg, up, back along the upper leg, down. -/
def ladderWalk : Walk := [(0, true), (2, true), (1, false), (2, false)]

theorem ladder_walk : LiftedWalk ladderHops ladderWalk 0 0 (ladderPos 0 0, ladderPos 0 1) (ladderPos 0 0, ladderPos 0 1) ∧
    liftedArea2 ladderHops ladderWalk (ladderPos 0 0, ladderPos 0 1) / 2 = 1 ∧
    (∀ h ∈ ladderHops, h.dr 1 = ladderPos h.j 1 - ladderPos h.i 1) ∧ walkProd ladderHops ladderWalk = 1 := by
  refine ⟨⟨_, rfl, rfl, _, rfl, rfl, _, rfl, rfl, _, rfl, rfl, rfl, ?_⟩, ?_, ?_, ?_⟩
  · simp [ladderPos]
  · simp [ladderWalk, liftedArea2, ladderHops, ladderPos]
  · intro h hm
    simp only [ladderHops, List.mem_cons, List.not_mem_nil, or_false] at hm
    rcases hm with rfl | rfl | rfl <;> simp [ladderPos]
  · simp [walkProd, ladderWalk, ladderHops]

/-- **C127 fails** for the other gauge: in gauge 1 a path of area 1 across the boundary of a ladder periodic along `x` encloses no flux,
in gauge 0 the right one. -/
theorem C127_ribbon_wrong_gauge (B : ℝ) :
    walkProd (setMagField 0 B ladderPos ladderHops) ladderWalk = Complex.exp (-2 * Real.pi * Complex.I * B / 4135.666734) ∧
    walkProd (setMagField 1 B ladderPos ladderHops) ladderWalk = 1 := by
  obtain ⟨h1, h2, h3, h4⟩ := ladder_walk
  constructor
  · rw [C127_ribbon_partial B (Or.inl rfl) (by simpa using h3) ladderWalk 0 h1, h2, h4]
    simp
  · simp [walkProd, ladderWalk, setMagField, ladderHops, magPhase, ladderPos, eiPhase_zero]

/-- The square of C30: its terms do not leave the sample, are in range and real. -/
theorem square_open : OpenTerms Props.squarePos Props.squareHops ∧ TermsInRange [(0 : ℝ), 1, 2, 3].length Props.squareHops ∧
    ∀ h ∈ Props.squareHops, star h.v = h.v := by
  refine ⟨?_, ?_, ?_⟩
  all_goals
    intro h hm
    simp only [Props.squareHops, List.mem_cons, List.not_mem_nil, or_false] at hm
  · intro x
    rcases hm with rfl | rfl | rfl | rfl <;> fin_cases x <;> simp [Props.squarePos]
  · rcases hm with rfl | rfl | rfl | rfl <;> simp
  · rcases hm with rfl | rfl | rfl | rfl <;> simp

/-- A case of C127: the square in the two gauges. -/
example (junk : CsrEnt ℝ ℂ) (B : ℝ) :
    SameUpToGauge 4 (buildFast Complex.ofReal junk 0 [0, 1, 2, 3] (setMagField 0 B Props.squarePos Props.squareHops))
      (buildFast Complex.ofReal junk 0 [0, 1, 2, 3] (setMagField 1 B Props.squarePos Props.squareHops)) := by
  obtain ⟨f, hf⟩ := argsort_exists
  exact C127_gauges_partial hf hf (eng := [0, 1, 2, 3]) square_open.2.1 B square_open.1 ⟨_, Or.inl rfl, Or.inl rfl⟩ ⟨_, Or.inl rfl, Or.inl rfl⟩

/-- A case of C127: the square in opposite fields has the same spectrum. -/
example (junk : CsrEnt ℝ ℂ) (B : ℝ) :
    ((FCsr.ofSample (buildFast Complex.ofReal junk 0 [0, 1, 2, 3] (setMagField 0 (-B) Props.squarePos Props.squareHops))).toMatrix 4).charpoly =
      ((FCsr.ofSample (buildFast Complex.ofReal junk 0 [0, 1, 2, 3] (setMagField 0 B Props.squarePos Props.squareHops))).toMatrix 4).charpoly := by
  obtain ⟨f, hf⟩ := argsort_exists
  exact (C127_reversal hf hf (eng := [0, 1, 2, 3]) square_open.2.1 B 0 Props.squarePos square_open.2.2
    (⟨_, Or.inl rfl, Or.inl rfl⟩ : BuiltFrom f f junk 0 _ _ _) ⟨_, Or.inl rfl, Or.inl rfl⟩).2.2.1

end Verif

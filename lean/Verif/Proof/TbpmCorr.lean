import Verif.Proof.Tbpm

/-! # Correlation functions of the DOS, LDOS, AC conductivity and dynamical polarization -/

namespace Verif.Tbpm

open Matrix
open scoped Classical

variable {n : ℕ}

theorem iterate_mulVec (U : Matrix (Fin n) (Fin n) ℂ) (k : ℕ) (x : CVec n) : (U.mulVec)^[k] x = (U ^ k).mulVec x := by
  induction k generalizing x with
  | zero => simp
  | succ k ih => rw [Function.iterate_succ_apply, ih, Matrix.mulVec_mulVec, pow_succ]

/-- A loop which propagates a state and adds something to one element of an array in each step. -/
theorem prop_loop {V A : Type*} [AddCommMonoid A] (u : V → V) (v : V → A) (a k : ℕ) (x : V) (c : ℕ → A) :
    (List.range' a k).foldl (fun (st : V × (ℕ → A)) t => (u st.1, addAt st.2 t (v (u st.1)))) (x, c) =
      (u^[k] x, fun i => c i + if a ≤ i ∧ i < a + k then v (u^[i - a + 1] x) else 0) := by
  induction k generalizing a x c with
  | zero =>
    simp only [List.range'_zero, List.foldl_nil, Function.iterate_zero, id]
    congr 1
    funext i
    rw [if_neg (by omega), add_zero]
  | succ k ih =>
    rw [List.range'_succ, List.foldl_cons, ih]
    simp only [Function.iterate_succ_apply]
    congr 1
    funext i
    unfold addAt
    by_cases h : i = a
    · subst h
      simp
    · rw [Function.update_of_ne h]
      by_cases h2 : a ≤ i ∧ i < a + (k + 1)
      · rw [if_pos (by omega), if_pos h2]
        have : i - a = i - (a + 1) + 1 := by omega
        rw [this, Function.iterate_succ_apply]
      · rw [if_neg (by omega), if_neg h2]

theorem prop_fst {V A : Type*} [AddCommMonoid A] (u : V → V) (v : V → A) (a k : ℕ) (x : V) (c : ℕ → A) :
    ((List.range' a k).foldl (fun (st : V × (ℕ → A)) t => (u st.1, addAt st.2 t (v (u st.1)))) (x, c)).1 = u^[k] x := by
  rw [prop_loop]

/-! ## DOS -/

/-- The correlation function of one state. -/
noncomputable def dosF (e : Env n) (nt : ℕ) (x : CVec n) (t : ℕ) : ℂ :=
  if t ≤ nt then innerProd x ((e.U true ^ t).mulVec x) else 0

theorem dosSample_eq {e : Env n} (g : e.Good) (rnd : ℤ → CVec n) (seed chk : ℤ) (thr : ℝ) (nt : ℕ) (hnt : 1 ≤ nt) (ns r : ℕ)
    (acc : ℕ → ℂ) (s : ℕ) :
    dosSample e rnd seed chk thr nt ns r acc s =
      if (∃ t : ℕ, (t : ℤ) = chk ∧ 2 ≤ t ∧ t ≤ nt ∧
        Drifts thr ((e.U true ^ (t - 1)).mulVec (rnd (seed * (s + r * ns)))) ((e.U true).mulVec (rnd (seed * (s + r * ns)))))
      then .error .diverged else .ok (acc + (ns : ℂ)⁻¹ • dosF e nt (rnd (seed * (s + r * ns)))) := by
  unfold dosSample
  generalize rnd (seed * (s + r * ns)) = x
  simp only [step_eq g]
  rw [guarded_loop (dosTime e chk thr ns r s x (innerProd ((e.U true).mulVec x) ((e.U true).mulVec x)))
    (fun st t => ((e.U true).mulVec st.1, addAt st.2 t (innerProd x ((e.U true).mulVec st.1) / ns)))
    (fun st => Drifts thr st.1 ((e.U true).mulVec x)) chk
    (fun st t => by unfold dosTime; simp only [step_eq g]; rw [chk_bind])]
  simp only [prop_fst (e.U true).mulVec (fun y => innerProd x y / (ns : ℂ)), iterate_mulVec, Matrix.mulVec_mulVec]
  have hc : (∃ t : ℕ, (t : ℤ) = chk ∧ 2 ≤ t ∧ t < 2 + (nt - 1) ∧ Drifts thr ((e.U true ^ (t - 2) * e.U true).mulVec x)
      ((e.U true).mulVec x)) ↔ ∃ t : ℕ, (t : ℤ) = chk ∧ 2 ≤ t ∧ t ≤ nt ∧ Drifts thr ((e.U true ^ (t - 1)).mulVec x)
      ((e.U true).mulVec x) := by
    constructor <;> rintro ⟨t, h1, h2, h3, h4⟩ <;> refine ⟨t, h1, h2, by omega, ?_⟩
    · rw [← pow_succ, show t - 2 + 1 = t - 1 by omega] at h4; exact h4
    · rw [← pow_succ, show t - 2 + 1 = t - 1 by omega]; exact h4
  simp only [hc]
  split
  · rfl
  · change Except.ok _ = _
    congr 1
    rw [prop_loop (e.U true).mulVec (fun y => innerProd x y / (ns : ℂ))]
    funext i
    simp only [Pi.add_apply, Pi.smul_apply, smul_eq_mul, iterate_mulVec, Matrix.mulVec_mulVec, dosF]
    unfold addAt
    rcases i with _ | _ | i
    · simp; ring
    · simp [hnt]; ring
    · rw [Function.update_of_ne (by omega), Function.update_of_ne (by omega)]
      by_cases h : i + 2 ≤ nt
      · rw [if_pos (by omega), if_pos (by omega), ← pow_succ, show i + 1 + 1 - 2 + 1 + 1 = i + 1 + 1 by omega]; ring
      · rw [if_neg (by omega), if_neg (by omega)]; simp

theorem dos_run {e : Env n} (g : e.Good) (w : World) (rnd : ℤ → CVec n) (seed chk : ℤ) (thr : ℝ) (nt : ℕ) (hnt : 1 ≤ nt)
    (nsamp : ℕ) :
    let bad := ∃ j < (distSample w nsamp).1, ∃ t : ℕ, (t : ℤ) = chk ∧ 2 ≤ t ∧ t ≤ nt ∧
        Drifts thr ((e.U true ^ (t - 1)).mulVec (rnd (seed * (j + 1)))) ((e.U true).mulVec (rnd (seed * (j + 1))))
    (bad → calcCorrDos w e rnd seed chk thr nt nsamp = .error .diverged) ∧
    (¬bad → ∃ c, calcCorrDos w e rnd seed chk thr nt nsamp = .ok c ∧ ∀ r < w.size,
      c r = meanSamples ℂ (distSample w nsamp).1 seed fun s => dosF e nt (rnd s)) := by
  intro bad
  obtain ⟨h1, h2⟩ := driver_samples (K := ℂ) w nsamp seed (fun s => ∃ t : ℕ, (t : ℤ) = chk ∧ 2 ≤ t ∧ t ≤ nt ∧
        Drifts thr ((e.U true ^ (t - 1)).mulVec (rnd s)) ((e.U true).mulVec (rnd s))) (fun s => dosF e nt (rnd s))
    (fun r => dosSample e rnd seed chk thr nt (distSample w nsamp).2 r) (fun r acc s => dosSample_eq g rnd seed chk thr nt hnt _ r acc s)
  refine ⟨fun hb => ?_, fun hb => ?_⟩
  · unfold calcCorrDos tbpmDos; rw [h1 hb]; rfl
  · obtain ⟨c, hc, hv⟩ := h2 hb
    refine ⟨_, ?_, hv⟩
    unfold calcCorrDos tbpmDos; rw [hc]; rfl

/-! ## LDOS -/

theorem ldosSample_eq {e : Env n} (g : e.Good) (sites : List (Fin n)) (rnd : ℤ → CVec n) (seed chk : ℤ) (thr : ℝ) (nt ns r : ℕ)
    (acc : ℕ → ℂ) (s : ℕ) :
    ldosSample e sites rnd seed chk thr nt ns r acc s =
      let x := ldosState sites (rnd (seed * (s + r * ns)))
      if (∃ t : ℕ, (t : ℤ) = chk ∧ 1 ≤ t ∧ t ≤ nt ∧ Drifts thr ((e.U true ^ (t - 1)).mulVec x) x)
      then .error .diverged else .ok (acc + (ns : ℂ)⁻¹ • dosF e nt x) := by
  unfold ldosSample
  simp only
  generalize ldosState sites (rnd (seed * (s + r * ns))) = x
  rw [guarded_loop (ldosTime e chk thr ns r s x (innerProd x x))
    (fun st t => ((e.U true).mulVec st.1, addAt st.2 t (innerProd x ((e.U true).mulVec st.1) / ns)))
    (fun st => Drifts thr st.1 x) chk
    (fun st t => by unfold ldosTime; simp only [step_eq g]; rw [chk_bind])]
  simp only [prop_fst (e.U true).mulVec (fun y => innerProd x y / (ns : ℂ)), iterate_mulVec]
  have hc : (∃ t : ℕ, (t : ℤ) = chk ∧ 1 ≤ t ∧ t < 1 + nt ∧ Drifts thr ((e.U true ^ (t - 1)).mulVec x) x) ↔
      ∃ t : ℕ, (t : ℤ) = chk ∧ 1 ≤ t ∧ t ≤ nt ∧ Drifts thr ((e.U true ^ (t - 1)).mulVec x) x := by
    constructor <;> rintro ⟨t, h1, h2, h3, h4⟩ <;> exact ⟨t, h1, h2, by omega, h4⟩
  simp only [hc]
  split
  · rfl
  · change Except.ok _ = _
    congr 1
    rw [prop_loop (e.U true).mulVec (fun y => innerProd x y / (ns : ℂ))]
    funext i
    simp only [Pi.add_apply, Pi.smul_apply, smul_eq_mul, iterate_mulVec, dosF]
    unfold addAt
    rcases i with _ | i
    · simp; ring
    · rw [Function.update_of_ne (by omega)]
      by_cases h : i + 1 ≤ nt
      · rw [if_pos (by omega), if_pos (by omega), show i + 1 - 1 + 1 = i + 1 by omega]; ring
      · rw [if_neg (by omega), if_neg (by omega)]; simp

theorem ldos_run {e : Env n} (g : e.Good) (w : World) (sites : List (Fin n)) (rnd : ℤ → CVec n) (seed chk : ℤ) (thr : ℝ) (nt : ℕ)
    (nsamp : ℕ) :
    let x : ℤ → CVec n := fun s => ldosState sites (rnd s)
    let bad := ∃ j < (distSample w nsamp).1, ∃ t : ℕ, (t : ℤ) = chk ∧ 1 ≤ t ∧ t ≤ nt ∧
        Drifts thr ((e.U true ^ (t - 1)).mulVec (x (seed * (j + 1)))) (x (seed * (j + 1)))
    (bad → calcCorrLdos w e sites rnd seed chk thr nt nsamp = .error .diverged) ∧
    (¬bad → ∃ c, calcCorrLdos w e sites rnd seed chk thr nt nsamp = .ok c ∧ ∀ r < w.size,
      c r = meanSamples ℂ (distSample w nsamp).1 seed fun s => dosF e nt (x s)) := by
  intro x bad
  obtain ⟨h1, h2⟩ := driver_samples (K := ℂ) w nsamp seed (fun s => ∃ t : ℕ, (t : ℤ) = chk ∧ 1 ≤ t ∧ t ≤ nt ∧
        Drifts thr ((e.U true ^ (t - 1)).mulVec (x s)) (x s)) (fun s => dosF e nt (x s))
    (fun r => ldosSample e sites rnd seed chk thr nt (distSample w nsamp).2 r)
    (fun r acc s => ldosSample_eq g sites rnd seed chk thr nt _ r acc s)
  refine ⟨fun hb => ?_, fun hb => ?_⟩
  · unfold calcCorrLdos tbpmLdos; rw [h1 hb]; rfl
  · obtain ⟨c, hc, hv⟩ := h2 hb
    refine ⟨_, ?_, hv⟩
    unfold calcCorrLdos tbpmLdos; rw [hc]; rfl

/-! ## AC conductivity -/

theorem iterate_pair {V W : Type*} (u : V → V) (v : W → W) (k : ℕ) (x : V) (y : W) :
    (fun p : V × W => (u p.1, v p.2))^[k] (x, y) = (u^[k] x, v^[k] y) := by
  induction k generalizing x y with
  | zero => rfl
  | succ k ih => rw [Function.iterate_succ_apply, ih, Function.iterate_succ_apply, Function.iterate_succ_apply]

/-- The correlation function of one state: element 0 to 3 for the pairs of currents. -/
noncomputable def acF (e : Env n) (jx jy f f1 : Matrix (Fin n) (Fin n) ℂ) (nt : ℕ) (x : CVec n) (t : ℕ) (c : Fin 4) : ℂ :=
  if 2 ≤ t ∧ t ≤ nt then
    innerProd ((e.U true ^ (t - 1)).mulVec (f.mulVec x))
      ((![jx, jy, jx, jy] c).mulVec ((e.U true ^ (t - 1)).mulVec (f1.mulVec ((![jx, jx, jy, jy] c).mulVec x))))
  else 0

theorem acSample_eq {e : Env n} (g : e.Good) {cx cy : FCsr} (hx : cx.Legal n) (hy : cy.Legal n) {cF cOmF : (ℕ → ℝ) × ℕ}
    (hF : 3 ≤ cF.2) (hO : 3 ≤ cOmF.2) (rnd : ℤ → CVec n) (seed chk : ℤ) (thr : ℝ) (nt ns r : ℕ) (acc : ℕ → Fin 4 → ℂ) (s : ℕ) :
    acSample e cx cy cF cOmF rnd seed chk thr nt ns r acc s =
      let x := rnd (seed * (s + r * ns))
      let y := (e.chebSeries cF).mulVec x
      if (∃ t : ℕ, (t : ℤ) = chk ∧ 2 ≤ t ∧ t ≤ nt ∧ Drifts thr ((e.U true ^ (t - 2)).mulVec y) y)
      then .error .diverged
      else .ok (acc + (ns : ℂ)⁻¹ • acF e (cx.toMatrix n) (cy.toMatrix n) (e.chebSeries cF) (e.chebSeries cOmF) nt x) := by
  unfold acSample
  simp only
  generalize rnd (seed * (s + r * ns)) = x
  simp only [fermi_eq g _ hF, fermi_eq g _ hO, mul_eq g _ hx, mul_eq g _ hy]
  set y := (e.chebSeries cF).mulVec x
  set px := (e.chebSeries cOmF).mulVec ((cx.toMatrix n).mulVec x)
  set py := (e.chebSeries cOmF).mulVec ((cy.toMatrix n).mulVec x)
  set u : CVec n × CVec n × CVec n → CVec n × CVec n × CVec n :=
    fun p => ((e.U true).mulVec p.1, (e.U true).mulVec p.2.1, (e.U true).mulVec p.2.2) with hu
  set v : CVec n × CVec n × CVec n → Fin 4 → ℂ := fun p c =>
    ![innerProd p.2.2 ((cx.toMatrix n).mulVec p.1), innerProd p.2.2 ((cy.toMatrix n).mulVec p.1),
      innerProd p.2.2 ((cx.toMatrix n).mulVec p.2.1), innerProd p.2.2 ((cy.toMatrix n).mulVec p.2.1)] c / ns with hv
  have hit : ∀ k a b c, u^[k] (a, b, c) = ((e.U true ^ k).mulVec a, (e.U true ^ k).mulVec b, (e.U true ^ k).mulVec c) := by
    intro k a b c
    rw [hu]
    have := iterate_pair (e.U true).mulVec (fun p : CVec n × CVec n => ((e.U true).mulVec p.1, (e.U true).mulVec p.2)) k a (b, c)
    rw [iterate_pair (e.U true).mulVec (e.U true).mulVec] at this
    simp only [iterate_mulVec] at this
    exact this
  rw [guarded_loop (acTime e cx cy chk thr ns r s (innerProd y y)) (fun st t => (u st.1, addAt st.2 t (v (u st.1))))
    (fun st => Drifts thr st.1.2.2 y) chk
    (fun st t => by
      unfold acTime acVals
      simp only [step_eq g, mul_eq g _ hx, mul_eq g _ hy]
      rw [chk_bind])]
  simp only [prop_fst u v, hit]
  have hc : (∃ t : ℕ, (t : ℤ) = chk ∧ 2 ≤ t ∧ t < 2 + (nt - 1) ∧ Drifts thr ((e.U true ^ (t - 2)).mulVec y) y) ↔
      ∃ t : ℕ, (t : ℤ) = chk ∧ 2 ≤ t ∧ t ≤ nt ∧ Drifts thr ((e.U true ^ (t - 2)).mulVec y) y := by
    constructor <;> rintro ⟨t, h1, h2, h3, h4⟩ <;> exact ⟨t, h1, h2, by omega, h4⟩
  simp only [hc]
  split
  · rfl
  · change Except.ok _ = _
    congr 1
    rw [prop_loop u v]
    funext i c
    simp only [Pi.add_apply, Pi.smul_apply, smul_eq_mul, acF, hit]
    by_cases h : 2 ≤ i ∧ i ≤ nt
    · rw [if_pos (by omega), if_pos h, show i - 2 + 1 = i - 1 by omega, hv]
      fin_cases c <;> simp [y, px, py] <;> ring
    · rw [if_neg (by omega), if_neg h]; simp

theorem ac_run {e : Env n} (g : e.Good) (w : World) (rescale : ℝ) (dx dy : ℕ → ℝ) {cF cOmF : (ℕ → ℝ) × ℕ}
    (hF : 3 ≤ cF.2) (hO : 3 ≤ cOmF.2) (rnd : ℤ → CVec n) (seed chk : ℤ) (thr : ℝ) (nt nsamp : ℕ) :
    let bad := ∃ j < (distSample w nsamp).1, ∃ t : ℕ, (t : ℤ) = chk ∧ 2 ≤ t ∧ t ≤ nt ∧
        Drifts thr ((e.U true ^ (t - 2)).mulVec ((e.chebSeries cF).mulVec (rnd (seed * (j + 1)))))
          ((e.chebSeries cF).mulVec (rnd (seed * (j + 1))))
    (bad → calcCorrAcCond w e rescale dx dy cF cOmF rnd seed chk thr nt nsamp = .error .diverged) ∧
    (¬bad → ∃ c, calcCorrAcCond w e rescale dx dy cF cOmF rnd seed chk thr nt nsamp = .ok c ∧ ∀ r < w.size,
      c r = meanSamples ℂ (distSample w nsamp).1 seed fun s => acF e ((e.ham.current dx rescale).toMatrix n)
        ((e.ham.current dy rescale).toMatrix n) (e.chebSeries cF) (e.chebSeries cOmF) nt (rnd s)) := by
  intro bad
  obtain ⟨h1, h2⟩ := driver_samples (K := ℂ) w nsamp seed (fun s => ∃ t : ℕ, (t : ℤ) = chk ∧ 2 ≤ t ∧ t ≤ nt ∧
        Drifts thr ((e.U true ^ (t - 2)).mulVec ((e.chebSeries cF).mulVec (rnd s))) ((e.chebSeries cF).mulVec (rnd s)))
    (fun s => acF e ((e.ham.current dx rescale).toMatrix n)
        ((e.ham.current dy rescale).toMatrix n) (e.chebSeries cF) (e.chebSeries cOmF) nt (rnd s))
    (fun r => acSample e (e.ham.current dx rescale) (e.ham.current dy rescale) cF cOmF rnd seed chk thr nt (distSample w nsamp).2 r)
    (fun r acc s => acSample_eq g (current_legal g.legal dx rescale) (current_legal g.legal dy rescale) hF hO rnd seed chk thr nt _
      r acc s)
  refine ⟨fun hb => ?_, fun hb => ?_⟩
  · unfold calcCorrAcCond tbpmAccond; rw [h1 hb]; rfl
  · obtain ⟨c, hc, hv⟩ := h2 hb
    refine ⟨_, ?_, hv⟩
    unfold calcCorrAcCond tbpmAccond; rw [hc]; rfl

/-! ## Dynamical polarization -/

/-- The correlation function of one state and q-point. -/
noncomputable def dynF (e : Env n) (rq rmq : CVec n) (f f1 : Matrix (Fin n) (Fin n) ℂ) (nt : ℕ) (x : CVec n) (t : ℕ) : ℝ :=
  if 1 ≤ t ∧ t ≤ nt then
    (innerProd ((e.U true ^ (t - 1)).mulVec (f.mulVec x)) (rq * (e.U true ^ (t - 1)).mulVec (f1.mulVec (rmq * x)))).im
  else 0

theorem dynSample_eq {e : Env n} (g : e.Good) (rq rmq : CVec n) {cF cOmF : (ℕ → ℝ) × ℕ} (hF : 3 ≤ cF.2) (hO : 3 ≤ cOmF.2)
    (rnd : ℤ → CVec n) (seed chk : ℤ) (thr : ℝ) (nt : ℕ) (hnt : 1 ≤ nt) (ns r iq : ℕ) (acc : ℕ → ℝ) (s : ℕ) :
    dynSample e rq rmq cF cOmF rnd seed chk thr nt ns r iq acc s =
      let x := rnd (seed * (s + r * ns))
      let y := (e.chebSeries cF).mulVec x
      if (∃ t : ℕ, (t : ℤ) = chk ∧ 2 ≤ t ∧ t ≤ nt ∧ Drifts thr ((e.U true ^ (t - 2)).mulVec y) y)
      then .error .diverged
      else .ok (acc + (ns : ℝ)⁻¹ • dynF e rq rmq (e.chebSeries cF) (e.chebSeries cOmF) nt x) := by
  unfold dynSample
  simp only
  generalize rnd (seed * (s + r * ns)) = x
  simp only [fermi_eq g _ hF, fermi_eq g _ hO]
  set y := (e.chebSeries cF).mulVec x
  set p := (e.chebSeries cOmF).mulVec (rmq * x)
  set u : CVec n × CVec n → CVec n × CVec n := fun p => ((e.U true).mulVec p.1, (e.U true).mulVec p.2) with hu
  set v : CVec n × CVec n → ℝ := fun p => (innerProd p.2 (rq * p.1)).im / ns with hv
  have hit : ∀ k a b, u^[k] (a, b) = ((e.U true ^ k).mulVec a, (e.U true ^ k).mulVec b) := by
    intro k a b
    rw [hu, iterate_pair, iterate_mulVec, iterate_mulVec]
  rw [guarded_loop (dynTime e rq chk thr ns r iq s (innerProd y y)) (fun st t => (u st.1, addAt st.2 t (v (u st.1))))
    (fun st => Drifts thr st.1.2 y) chk
    (fun st t => by
      unfold dynTime
      simp only [step_eq g]
      rw [chk_bind])]
  simp only [prop_fst u v, hit]
  have hc : (∃ t : ℕ, (t : ℤ) = chk ∧ 2 ≤ t ∧ t < 2 + (nt - 1) ∧ Drifts thr ((e.U true ^ (t - 2)).mulVec y) y) ↔
      ∃ t : ℕ, (t : ℤ) = chk ∧ 2 ≤ t ∧ t ≤ nt ∧ Drifts thr ((e.U true ^ (t - 2)).mulVec y) y := by
    constructor <;> rintro ⟨t, h1, h2, h3, h4⟩ <;> exact ⟨t, h1, h2, by omega, h4⟩
  simp only [hc]
  split
  · rfl
  · change Except.ok _ = _
    congr 1
    rw [prop_loop u v]
    funext i
    simp only [Pi.add_apply, Pi.smul_apply, smul_eq_mul, dynF, hit]
    unfold addAt
    by_cases h1 : i = 1
    · subst h1
      simp [hnt, y, p]; ring
    · rw [Function.update_of_ne h1]
      by_cases h : 1 ≤ i ∧ i ≤ nt
      · rw [if_pos (by omega), if_pos h, show i - 2 + 1 = i - 1 by omega, hv]
        simp only [y, p]; ring
      · rw [if_neg (by omega), if_neg h]; simp

theorem dyn_run {e : Env n} (g : e.Good) (w : World) (sx sy sz : Fin n → ℝ) (q : List (Fin 3 → ℝ)) {cF cOmF : (ℕ → ℝ) × ℕ}
    (hF : 3 ≤ cF.2) (hO : 3 ≤ cOmF.2) (rnd : ℤ → CVec n) (seed chk : ℤ) (thr : ℝ) (nt : ℕ) (hnt : 1 ≤ nt) (nsamp : ℕ) :
    let bad := q ≠ [] ∧ ∃ j < (distSample w nsamp).1, ∃ t : ℕ, (t : ℤ) = chk ∧ 2 ≤ t ∧ t ≤ nt ∧
        Drifts thr ((e.U true ^ (t - 2)).mulVec ((e.chebSeries cF).mulVec (rnd (seed * (j + 1)))))
          ((e.chebSeries cF).mulVec (rnd (seed * (j + 1))))
    (bad → calcCorrDynPol w e sx sy sz q cF cOmF rnd seed chk thr nt nsamp = .error .diverged) ∧
    (¬bad → ∃ c, calcCorrDynPol w e sx sy sz q cF cOmF rnd seed chk thr nt nsamp = .ok c ∧ ∀ r < w.size, ∀ iq < q.length,
      c r iq = meanSamples ℝ (distSample w nsamp).1 seed fun s => dynF e (densityCoef sx sy sz (q.getD iq 0)).1
        (densityCoef sx sy sz (q.getD iq 0)).2 (e.chebSeries cF) (e.chebSeries cOmF) nt (rnd s)) := by
  intro bad
  set b : ℤ → Prop := fun s => ∃ t : ℕ, (t : ℤ) = chk ∧ 2 ≤ t ∧ t ≤ nt ∧
        Drifts thr ((e.U true ^ (t - 2)).mulVec ((e.chebSeries cF).mulVec (rnd s))) ((e.chebSeries cF).mulVec (rnd s)) with hbdef
  set F : ℕ → ℤ → ℕ → ℝ := fun iq s => if iq < q.length then dynF e (densityCoef sx sy sz (q.getD iq 0)).1
        (densityCoef sx sy sz (q.getD iq 0)).2 (e.chebSeries cF) (e.chebSeries cOmF) nt (rnd s) else 0 with hFdef
  obtain ⟨h1, h2⟩ := driver (K := ℝ) w nsamp seed (fun s => q ≠ [] ∧ b s) (fun s iq => F iq s)
    (fun r => tbpmDynPol e sx sy sz q cF cOmF rnd seed chk thr nt (distSample w nsamp).2 r) (by
      intro r m
      have hrow : ∀ iq, (List.range' 1 m).foldlM (dynSample e (densityCoef sx sy sz (q.getD iq 0)).1
          (densityCoef sx sy sz (q.getD iq 0)).2 cF cOmF rnd seed chk thr nt m r iq) (0 : ℕ → ℝ) =
          if (∃ i < m, b (seed * ((1 + i : ℕ) + r * m))) then .error .diverged
          else .ok ((m : ℝ)⁻¹ • ∑ i ∈ Finset.range m, dynF e (densityCoef sx sy sz (q.getD iq 0)).1
            (densityCoef sx sy sz (q.getD iq 0)).2 (e.chebSeries cF) (e.chebSeries cOmF) nt (rnd (seed * ((1 + i : ℕ) + r * m)))) := by
        intro iq
        rw [sample_loop (K := ℝ) b (fun s => dynF e (densityCoef sx sy sz (q.getD iq 0)).1
          (densityCoef sx sy sz (q.getD iq 0)).2 (e.chebSeries cF) (e.chebSeries cOmF) nt (rnd s)) seed m r _
          (fun acc s => dynSample_eq g _ _ hF hO rnd seed chk thr nt hnt m r iq acc s), zero_add]
      have hall := mapM_guard _ (fun _ : ℕ => ∃ i < m, b (seed * ((1 + i : ℕ) + r * m))) _ (fun iq => ite_split _ _ (hrow iq)) (List.range q.length)
      constructor
      · rintro ⟨i, hi, hq, hb⟩
        unfold tbpmDynPol
        have hex : ∃ iq ∈ List.range q.length, ∃ i < m, b (seed * ((1 + i : ℕ) + r * m)) :=
          ⟨0, by simpa [List.length_pos_iff] using hq, i, hi, hb⟩
        rw [if_pos hex] at hall
        simp only
        rw [hall]; rfl
      · intro hn
        unfold tbpmDynPol
        have hex : ¬∃ iq ∈ List.range q.length, ∃ i < m, b (seed * ((1 + i : ℕ) + r * m)) := by
          rintro ⟨iq, hiq, i, hi, hb⟩
          refine hn ⟨i, hi, ?_, hb⟩
          rintro rfl
          simp at hiq
        rw [if_neg hex] at hall
        simp only
        rw [hall]
        change Except.ok _ = _
        congr 1
        funext iq t
        by_cases hiq : iq < q.length
        · simp [List.getD, hiq, hFdef]
        · simp [List.getD, hiq, hFdef])
  have hiff : bad ↔ ∃ j < (distSample w nsamp).1, q ≠ [] ∧ b (seed * (j + 1)) := by
    constructor
    · rintro ⟨hq, j, hj, hb⟩; exact ⟨j, hj, hq, hb⟩
    · rintro ⟨j, hj, hq, hb⟩; exact ⟨hq, j, hj, hb⟩
  refine ⟨fun hb => ?_, fun hb => ?_⟩
  · unfold calcCorrDynPol; rw [h1 (hiff.1 hb)]; rfl
  · obtain ⟨c, hc, hv⟩ := h2 (fun h => hb (hiff.2 h))
    refine ⟨allAverage (K := ℝ) w c, ?_, fun r hr iq hiq => ?_⟩
    · unfold calcCorrDynPol; rw [hc]; rfl
    · rw [hv r hr]
      unfold meanSamples
      rw [Pi.smul_apply, Finset.sum_apply]
      simp only [hFdef, if_pos hiq]

end Verif.Tbpm

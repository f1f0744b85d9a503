import Verif.Proof.TbpmQe

/-! # Kubo-Bastin moments, wave functions at given times, Bessel series -/

namespace Verif.Tbpm

open Matrix
open scoped Classical

variable {n : ℕ}

/-! ## Kubo-Bastin moments -/

theorem fvec_zero (M : Matrix (Fin n) (Fin n) ℂ) (x : CVec n) : fvec M x 0 = x := by simp [fvec, chebT_zero]

theorem fvec_one (M : Matrix (Fin n) (Fin n) ℂ) (x : CVec n) : fvec M x 1 = M.mulVec x := by simp [fvec, chebT_one]

theorem range'_three_succ (k : ℕ) : List.range' 3 (k + 1) = List.range' 3 k ++ [k + 3] := by
  rw [List.range'_1_concat, add_comm 3 k]

theorem kern_loop {e : Env n} (g : e.Good) (r s : ℕ) (x : CVec n) (k : ℕ) :
    (List.range' 3 k).foldl (fun (kern : ℕ → CVec n) j =>
      let hx := e.mul [r, s, 1, j] e.ham (kern (j - 2))
      Function.update kern (j - 1) (axpby (-1) (kern (j - 3)) 2 hx))
      (Function.update (Function.update (fun _ : ℕ => (0 : CVec n)) 0 x) 1 (e.mul [r, s, 1, 2] e.ham x)) =
    fun j => if j < k + 2 then fvec e.H x j else 0 := by
  induction k with
  | zero =>
    simp only [List.range'_zero, List.foldl_nil]
    funext j
    rw [mul_eq g _ g.legal]
    match j with
    | 0 => simp [fvec_zero]
    | 1 => simp [fvec_one, Env.H]
    | j + 2 => simp
  | succ k ih =>
    rw [range'_three_succ, List.foldl_append, ih]
    simp only [List.foldl_cons, List.foldl_nil, mul_eq g _ g.legal]
    rw [show k + 3 - 2 = k + 1 by omega, show k + 3 - 1 = k + 2 by omega, show k + 3 - 3 = k by omega,
      if_pos (by omega), if_pos (by omega)]
    have hnew : axpby (-1) (fvec e.H x k) 2 ((e.ham.toMatrix n).mulVec (fvec e.H x (k + 1))) = fvec e.H x (k + 2) := by
      rw [fvec_succ]
      funext i
      simp only [axpby, Env.H, Pi.sub_apply, Pi.smul_apply, smul_eq_mul]
      ring
    rw [hnew]
    funext j
    by_cases h : j = k + 2
    · subst h; rw [Function.update_self, if_pos (by omega)]
    · rw [Function.update_of_ne h]
      by_cases h2 : j < k + 2
      · rw [if_pos h2, if_pos (by omega)]
      · rw [if_neg h2, if_neg (by omega)]

theorem kernLoop_eq {e : Env n} (g : e.Good) (r s nk : ℕ) (hk : 2 ≤ nk) (x : CVec n) :
    kernLoop e r s nk x = fun j => if j < nk then fvec e.H x j else 0 := by
  unfold kernLoop
  simp only
  rw [kern_loop g, show nk - 2 + 2 = nk by omega]

/-- Replacing the entries of a list of vectors one after the other. -/
theorem map_loop {A : Type*} (f : ℕ → A → A) (k : ℕ) (a : ℕ → A) :
    (List.range k).foldl (fun b j => Function.update b j (f j (b j))) a = fun j => if j < k then f j (a j) else a j := by
  induction k with
  | zero => simp
  | succ k ih =>
    rw [List.range_succ, List.foldl_append, ih]
    simp only [List.foldl_cons, List.foldl_nil, lt_irrefl, if_false]
    funext j
    by_cases h : j = k
    · subst h; rw [Function.update_self, if_pos (by omega)]
    · rw [Function.update_of_ne h]
      by_cases h2 : j < k
      · rw [if_pos h2, if_pos (by omega)]
      · rw [if_neg h2, if_neg (by omega)]

/-- Filling a row of a matrix. -/
theorem row_loop (a : ℕ) (f : ℕ → ℂ) (k : ℕ) (c : ℕ → ℕ → ℂ) :
    (List.range k).foldl (fun c j => Function.update c a (Function.update (c a) j (f j))) c =
      Function.update c a (fun j => if j < k then f j else c a j) := by
  have h : ∀ l : List ℕ, ∀ c : ℕ → ℕ → ℂ,
      l.foldl (fun c j => Function.update c a (Function.update (c a) j (f j))) c =
        Function.update c a (l.foldl (fun b j => Function.update b j (f j)) (c a)) := by
    intro l
    induction l with
    | nil => intro c; simp
    | cons j l ih => intro c; rw [List.foldl_cons, ih, List.foldl_cons]; simp
  rw [h, map_loop (fun j _ => f j)]

theorem kb_loop {e : Env n} (g : e.Good) (r s nk : ℕ) (kern : ℕ → CVec n) (y : CVec n) (k : ℕ) :
    ∃ mem p0, (List.range' 3 k).foldl (kbBody e r s nk kern)
        ((fun p => if p then fvec e.H y 1 else fvec e.H y 0), false, true,
          fun i j => if i < 2 ∧ j < nk then innerProd (fvec e.H y i) (kern j) else 0) =
      (mem, p0, !p0, fun i j => if i < k + 2 ∧ j < nk then innerProd (fvec e.H y i) (kern j) else 0) ∧
      mem p0 = fvec e.H y k ∧ mem (!p0) = fvec e.H y (k + 1) := by
  induction k with
  | zero => exact ⟨_, false, rfl, rfl, rfl⟩
  | succ k ih =>
    obtain ⟨mem, p0, h1, h2, h3⟩ := ih
    rw [range'_three_succ, List.foldl_append, h1]
    simp only [List.foldl_cons, List.foldl_nil, kbBody]
    have hne : (!p0) ≠ p0 := by cases p0 <;> simp
    have hnew : (2 : ℂ) • (e.ham.toMatrix n).mulVec (fvec e.H y (k + 1)) + (-1 : ℂ) • fvec e.H y k = fvec e.H y (k + 2) := by
      rw [fvec_succ, neg_one_smul, sub_eq_add_neg]; rfl
    rw [amxpby_eq _ (g.order _ _) _ e.ham g.legal _ _ _ hne, h2, h3, hnew]
    refine ⟨Function.update mem p0 (fvec e.H y (k + 2)), !p0, ?_, ?_, ?_⟩
    · rw [Bool.not_not, Function.update_self, row_loop]
      congr 3
      funext i j
      rw [show k + 3 - 1 = k + 2 by omega]
      by_cases h : i = k + 2
      · subst h
        rw [Function.update_self]
        by_cases hj : j < nk
        · rw [if_pos hj, if_pos ⟨by omega, hj⟩]
        · rw [if_neg hj, if_neg (fun hh => hj hh.2), if_neg (fun hh => hj hh.2)]
      · rw [Function.update_of_ne h]
        by_cases h2 : i < k + 2 ∧ j < nk
        · rw [if_pos h2, if_pos ⟨by omega, h2.2⟩]
        · rw [if_neg h2, if_neg (fun hh => h2 ⟨by omega, hh.2⟩)]
    · rw [Function.update_of_ne hne, h3]
    · rw [Bool.not_not, Function.update_self]

/-- The moments of one sample. -/
noncomputable def kbF (e : Env n) (jx jd : Matrix (Fin n) (Fin n) ℂ) (nk : ℕ) (x : CVec n) (i j : ℕ) : ℂ :=
  if i < nk ∧ j < nk then jacksonKernel nk i * jacksonKernel nk j *
    innerProd ((chebT i e.H).mulVec (jx.mulVec x)) (jd.mulVec ((chebT j e.H).mulVec x)) else 0

theorem kbSample_eq {e : Env n} (g : e.Good) {cx cd : FCsr} (hx : cx.Legal n) (hd : cd.Legal n) (rnd : ℤ → CVec n) (seed : ℤ)
    (ns r nk : ℕ) (hk : 2 ≤ nk) (acc : ℕ → ℕ → ℂ) (s : ℕ) :
    kbSample e cx cd rnd seed ns r nk acc s =
      acc + (ns : ℂ)⁻¹ • kbF e (cx.toMatrix n) (cd.toMatrix n) nk (rnd (seed * (s + r * ns))) := by
  unfold kbSample
  simp only
  generalize rnd (seed * (s + r * ns)) = x
  rw [kernLoop_eq g r s nk hk, map_loop (fun j v => e.mul [r, s, 2, j] cd v)]
  simp only [mul_eq g _ hd, mul_eq g _ hx, mul_eq g _ g.legal]
  set kern : ℕ → CVec n := fun j => if j < nk then (cd.toMatrix n).mulVec (if j < nk then fvec e.H x j else 0) else
    if j < nk then fvec e.H x j else 0 with hkern
  have hkj : ∀ j < nk, kern j = (cd.toMatrix n).mulVec ((chebT j e.H).mulVec x) := by
    intro j hj; simp only [hkern]; rw [if_pos hj, if_pos hj]; rfl
  set y := (cx.toMatrix n).mulVec x with hy
  rw [row_loop, row_loop]
  have hcorr : (Function.update (Function.update (0 : ℕ → ℕ → ℂ) 0 fun j => if j < nk then innerProd y (kern j) else (0 : ℕ → ℕ → ℂ) 0 j) 1
      fun j => if j < nk then innerProd ((e.ham.toMatrix n).mulVec y) (kern j) else
        (Function.update (0 : ℕ → ℕ → ℂ) 0 fun j => if j < nk then innerProd y (kern j) else (0 : ℕ → ℕ → ℂ) 0 j) 1 j) =
      fun i j => if i < 2 ∧ j < nk then innerProd (fvec e.H y i) (kern j) else 0 := by
    funext i j
    match i with
    | 0 => simp [fvec_zero]
    | 1 => simp [fvec_one, Env.H]
    | i + 2 => simp
  have hmem : (fun p : Bool => if p then (e.ham.toMatrix n).mulVec y else y) =
      fun p : Bool => if p then fvec e.H y 1 else fvec e.H y 0 := by
    funext p; rw [fvec_one, fvec_zero]; rfl
  rw [hcorr, hmem]
  obtain ⟨mem, p0, h1, -, -⟩ := kb_loop g r s nk kern y (nk - 2)
  rw [h1]
  funext i j
  simp only [Pi.add_apply, Pi.smul_apply, smul_eq_mul, kbF]
  rw [show nk - 2 + 2 = nk by omega]
  by_cases h : i < nk ∧ j < nk
  · rw [if_pos h, if_pos h, hkj j h.2]
    unfold fvec
    ring
  · rw [if_neg h, if_neg h]; simp

theorem foldlM_ok {S A : Type} (f : S → A → S) (l : List A) (s : S) :
    l.foldlM (fun s a => (.ok (f s a) : Except TErr S)) s = .ok (l.foldl f s) := by
  induction l generalizing s with
  | nil => rfl
  | cons a l ih => rw [List.foldlM_cons, List.foldl_cons, ← ih]; rfl

theorem kb_run {e : Env n} (g : e.Good) (w : World) (rescale : ℝ) (dx dy : ℕ → ℝ) (itype : ℤ) (ht : itype = 1 ∨ itype = 2)
    (rnd : ℤ → CVec n) (seed : ℤ) (nsamp nk : ℕ) (hk : 2 ≤ nk) :
    ∃ c, calcHallMu w e rescale dx dy itype rnd seed nsamp nk = .ok c ∧ ∀ r < w.size,
      c r = meanSamples ℂ (distSample w nsamp).1 seed fun s => kbF e ((e.ham.current dx rescale).toMatrix n)
        ((e.ham.current (if itype = 1 then dx else dy) rescale).toMatrix n) nk (rnd s) := by
  obtain ⟨-, h2⟩ := driver_samples (K := ℂ) w nsamp seed (fun _ => False)
    (fun s => kbF e ((e.ham.current dx rescale).toMatrix n)
        ((e.ham.current (if itype = 1 then dx else dy) rescale).toMatrix n) nk (rnd s))
    (fun r acc s => .ok (kbSample e (e.ham.current dx rescale) (e.ham.current (if itype = 1 then dx else dy) rescale) rnd seed
      (distSample w nsamp).2 r nk acc s))
    (fun r acc s => by
      rw [if_neg not_false, kbSample_eq g (current_legal g.legal _ _) (current_legal g.legal _ _) rnd seed _ r nk hk])
  obtain ⟨c, hc, hv⟩ := h2 (by rintro ⟨_, _, h⟩; exact h)
  refine ⟨allAverage (K := ℂ) w c, ?_, hv⟩
  have hf : (fun r => tbpmKbdc e rescale dx dy itype rnd seed (distSample w nsamp).2 r nk) = fun r =>
      (List.range' 1 (distSample w nsamp).2).foldlM (fun acc s => (.ok (kbSample e (e.ham.current dx rescale)
        (e.ham.current (if itype = 1 then dx else dy) rescale) rnd seed (distSample w nsamp).2 r nk acc s) :
          Except TErr (ℕ → ℕ → ℂ))) 0 := by
    funext r
    rw [foldlM_ok]
    unfold tbpmKbdc
    by_cases h0 : (distSample w nsamp).2 = 0
    · rw [if_pos h0, h0]; rfl
    · rw [if_neg h0]
      rcases ht with h | h
      · rw [if_pos h, if_pos h]
      · rw [if_neg (by omega), if_pos h, if_neg (by omega)]
  unfold calcHallMu
  rw [hf, hc]
  rfl

/-! ## Wave functions at given times -/

/-- The step of the time loop without the check. -/
noncomputable def psiStep (e : Env n) (tlog : List ℤ) (st : CVec n × ℕ × (ℕ → CVec n)) (t : ℕ) : CVec n × ℕ × (ℕ → CVec n) :=
  ((e.U true).mulVec st.1,
    if tlog.getD st.2.1 0 = (t : ℤ) - 1 then (if st.2.1 + 1 < tlog.length then st.2.1 + 1 else st.2.1) else st.2.1,
    if tlog.getD st.2.1 0 = (t : ℤ) - 1 then Function.update st.2.2 st.2.1 st.1 else st.2.2)

theorem psi_loop (e : Env n) (psi : CVec n) (tlog : List ℤ) (hs : tlog.SortedLT) (hne : tlog ≠ []) (h0 : ∀ t ∈ tlog, 0 ≤ t)
    (init : ℕ → CVec n) (k : ℕ) :
    let st := (List.range' 1 k).foldl (psiStep e tlog) (psi, 0, init)
    st.1 = (e.U true ^ k).mulVec psi ∧ st.2.1 < tlog.length ∧
    (∀ i, i < tlog.length → tlog.getD i 0 < k → st.2.2 i = (e.U true ^ (tlog.getD i 0).toNat).mulVec psi) ∧
    (∀ i < st.2.1, tlog.getD i 0 < k) ∧ (st.2.1 + 1 < tlog.length → (k : ℤ) ≤ tlog.getD st.2.1 0) := by
  have hg : ∀ i (h : i < tlog.length), tlog.getD i 0 = tlog[i] := fun i h => by simp [h]
  have hlt : ∀ i j, i < j → j < tlog.length → tlog.getD i 0 < tlog.getD j 0 := by
    intro i j hij hj
    rw [hg i (by omega), hg j hj]
    exact hs.strictMono_get (a := ⟨i, by omega⟩) (b := ⟨j, hj⟩) hij
  have hpos : ∀ i < tlog.length, 0 ≤ tlog.getD i 0 := fun i h => by rw [hg i h]; exact h0 _ (List.getElem_mem h)
  induction k with
  | zero =>
    refine ⟨by simp, by simpa using List.length_pos_of_ne_nil hne, ?_, ?_, ?_⟩
    · intro i hi h; have := hpos i hi; exact absurd h (by push_cast; omega)
    · intro i hi; simp at hi
    · intro _; simpa using hpos 0 (List.length_pos_of_ne_nil hne)
  | succ k ih =>
    obtain ⟨i1, i2, i3, i4, i5⟩ := ih
    rw [range'_one_succ, List.foldl_append]
    set st := (List.range' 1 k).foldl (psiStep e tlog) (psi, 0, init) with hst
    simp only [List.foldl_cons, List.foldl_nil, psiStep]
    have hk : ((k + 1 : ℕ) : ℤ) - 1 = k := by push_cast; ring
    rw [hk]
    have hptr : ∀ i < tlog.length, tlog.getD i 0 = k → i = st.2.1 := by
      intro i hi he
      rcases lt_trichotomy i st.2.1 with h | h | h
      · have := i4 i h; omega
      · exact h
      · have h1 := i5 (by omega)
        have h2 := hlt _ _ h hi
        omega
    refine ⟨by rw [i1, Matrix.mulVec_mulVec, ← pow_succ'], ?_, ?_, ?_, ?_⟩
    · split
      · split <;> omega
      · exact i2
    · intro i hi hlt'
      by_cases hik : tlog.getD i 0 = k
      · have hp := hptr i hi hik
        subst hp
        rw [if_pos hik, Function.update_self, hik, i1]
        simp
      · have hlt2 : tlog.getD i 0 < k := by push_cast at hlt'; omega
        rw [← i3 i hi hlt2]
        split
        · next hh =>
          rw [Function.update_of_ne]
          rintro rfl
          exact hik hh
        · rfl
    · intro i hi
      have : i < st.2.1 ∨ (i = st.2.1 ∧ tlog.getD st.2.1 0 = k) := by
        by_cases hh : tlog.getD st.2.1 0 = k
        · rw [if_pos hh] at hi
          split at hi <;> [(by_cases h : i = st.2.1; exact Or.inr ⟨h, hh⟩; left; omega); exact Or.inl hi]
        · rw [if_neg hh] at hi; exact Or.inl hi
      rcases this with h | ⟨h, hh⟩
      · have := i4 i h; push_cast; omega
      · rw [h, hh]; push_cast; omega
    · by_cases hh : tlog.getD st.2.1 0 = k
      · rw [if_pos hh]
        by_cases h2 : st.2.1 + 1 < tlog.length
        · rw [if_pos h2]
          intro h3
          have := hlt st.2.1 (st.2.1 + 1) (by omega) h2
          push_cast; omega
        · rw [if_neg h2]; intro h3; exact absurd h3 h2
      · rw [if_neg hh]
        intro h3
        have := i5 h3
        push_cast; omega

theorem psi_run {e : Env n} (g : e.Good) (psi : CVec n) (tlog : List ℤ) (hs : tlog.SortedLT) (hne : tlog ≠ []) (nt : ℕ)
    (h0 : ∀ t ∈ tlog, 0 ≤ t ∧ t < (nt : ℤ) + 1) (chk : ℤ) (thr : ℝ) (init : ℕ → CVec n) :
    let bad := ∃ t : ℕ, (t : ℤ) = chk ∧ 1 ≤ t ∧ t ≤ nt ∧ Drifts thr ((e.U true ^ (t - 1)).mulVec psi) psi
    (bad → tbpmPsiT e psi tlog nt chk thr init = .error .diverged) ∧
    (¬bad → ∃ out, tbpmPsiT e psi tlog nt chk thr init = .ok out ∧
      (List.range tlog.length).map out = tlog.map fun t => (e.U true ^ t.toNat).mulVec psi) := by
  intro bad
  have hloop := guarded_loop (psiTime e tlog chk thr (innerProd psi psi)) (psiStep e tlog) (fun st => Drifts thr st.1 psi) chk
    (fun st t => by
      unfold psiTime
      simp only [step_eq g]
      rw [chk_bind]
      rfl) 1 nt (psi, 0, init)
  have hc : (∃ t : ℕ, (t : ℤ) = chk ∧ 1 ≤ t ∧ t < 1 + nt ∧
      Drifts thr ((List.range' 1 (t - 1)).foldl (psiStep e tlog) (psi, 0, init)).1 psi) ↔ bad := by
    simp only [(psi_loop e psi tlog hs hne (fun t ht => (h0 t ht).1) init _).1]
    constructor <;> rintro ⟨t, h1, h2, h3, h4⟩ <;> exact ⟨t, h1, h2, by omega, h4⟩
  simp only [hc] at hloop
  refine ⟨fun hb => ?_, fun hb => ?_⟩
  · unfold tbpmPsiT
    rw [hloop, if_pos hb]; rfl
  · unfold tbpmPsiT
    rw [hloop, if_neg hb]
    refine ⟨_, rfl, ?_⟩
    obtain ⟨i1, i2, i3, i4, i5⟩ := psi_loop e psi tlog hs hne (fun t ht => (h0 t ht).1) init nt
    set st := (List.range' 1 nt).foldl (psiStep e tlog) (psi, 0, init) with hst
    apply List.ext_getElem (by simp)
    intro i hi hi2
    have hi3 : i < tlog.length := by simpa using hi
    have hgi : tlog.getD i 0 = tlog[i] := by simp [hi3]
    have hin := h0 _ (List.getElem_mem hi3)
    rw [← hgi] at hin
    simp only [List.getElem_map, List.getElem_range]
    rw [← hgi]
    by_cases hit : tlog.getD i 0 = nt
    · have hp : i = st.2.1 := by
        rcases lt_trichotomy i st.2.1 with h | h | h
        · have := i4 i h; omega
        · exact h
        · have h1 := i5 (by omega)
          have h2 : tlog.getD st.2.1 0 < tlog.getD i 0 := by
            rw [hgi, show tlog.getD st.2.1 0 = tlog[st.2.1] by simp [i2]]
            exact hs.strictMono_get (a := ⟨st.2.1, i2⟩) (b := ⟨i, hi3⟩) h
          omega
      rw [hp] at hit ⊢
      rw [if_pos hit, Function.update_self, i1, hit]
      simp
    · rw [← i3 i hi3 (by omega)]
      split
      · next hh =>
        rw [Function.update_of_ne]
        rintro rfl
        exact hit hh
      · rfl

/-! ## Bessel series -/

theorem bessel_loop (jv : ℕ → ℝ) (prec : ℝ) (k a : ℕ) (acc : List ℝ) :
    (∀ m, m < k → (∀ i < m, ¬(|jv (a + i)| ≤ prec ∧ |jv (a + i + 1)| ≤ prec)) → (|jv (a + m)| ≤ prec ∧ |jv (a + m + 1)| ≤ prec) →
      besselLoop jv prec (List.range' a k) acc = (acc ++ (List.range' a m).map jv, true)) ∧
    ((∀ i < k, ¬(|jv (a + i)| ≤ prec ∧ |jv (a + i + 1)| ≤ prec)) →
      besselLoop jv prec (List.range' a k) acc = (acc ++ (List.range' a k).map jv, false)) := by
  induction k generalizing a acc with
  | zero => exact ⟨fun m h => absurd h (by omega), fun _ => by simp [besselLoop]⟩
  | succ k ih =>
    obtain ⟨ih1, ih2⟩ := ih (a + 1) (acc ++ [jv a])
    have hstep : ¬(|jv a| ≤ prec ∧ |jv (a + 1)| ≤ prec) →
        besselLoop jv prec (List.range' a (k + 1)) acc = besselLoop jv prec (List.range' (a + 1) k) (acc ++ [jv a]) := by
      intro h
      rw [List.range'_succ, besselLoop]
      by_cases h1 : |jv a| > prec
      · rw [if_pos h1]
      · rw [if_neg h1, if_pos]
        by_contra h2
        exact h ⟨not_lt.1 h1, not_lt.1 h2⟩
    refine ⟨fun m hm hall hend => ?_, fun hall => ?_⟩
    · match m with
      | 0 =>
        rw [Nat.add_zero] at hend
        rw [List.range'_succ, besselLoop, if_neg (not_lt.2 hend.1), if_neg (not_lt.2 hend.2)]
        simp
      | m + 1 =>
        rw [hstep (by simpa using hall 0 (by omega)), ih1 m (by omega)]
        · rw [List.range'_succ, List.map_cons, List.append_assoc]; rfl
        · intro i hi
          have := hall (i + 1) (by omega)
          rwa [show a + (i + 1) = a + 1 + i by omega] at this
        · rwa [show a + (m + 1) = a + 1 + m by omega] at hend
    · rw [hstep (by simpa using hall 0 (by omega)), ih2]
      · rw [List.range'_succ, List.map_cons, List.append_assoc]; rfl
      · intro i hi
        have := hall (i + 1) (by omega)
        rwa [show a + (i + 1) = a + 1 + i by omega] at this

theorem bessel_series (jv : ℕ → ℝ) (prec : ℝ) (M : ℕ) :
    (∀ m, m < M → (∀ i < m, ¬(|jv i| ≤ prec ∧ |jv (i + 1)| ≤ prec)) → (|jv m| ≤ prec ∧ |jv (m + 1)| ≤ prec) →
      besselSeries jv prec M = .ok ((List.range m).map jv)) ∧
    ((∀ i < M, ¬(|jv i| ≤ prec ∧ |jv (i + 1)| ≤ prec)) → besselSeries jv prec M = .error .value) := by
  obtain ⟨h1, h2⟩ := bessel_loop jv prec M 0 []
  unfold besselSeries
  simp only [List.range_eq_range', zero_add, List.nil_append] at *
  refine ⟨fun m hm ha he => ?_, fun ha => ?_⟩
  · rw [h1 m hm ha he]; simp
  · rw [h2 ha]; simp

end Verif.Tbpm

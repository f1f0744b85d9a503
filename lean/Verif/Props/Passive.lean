import Verif.Proof.Passive

/-! # C126: response functions of the diagonalization method describe a passive medium -/

namespace Verif.Props

/-- C126: a calculator made with a positive temperature has a positive `beta` with `beta · KB · T = 1`, a supported dimension, the
mesh asked for, and frequencies from `energy_min` to `energy_max`; every other argument is kept.  It can be made exactly if there
are three mesh numbers, the dimension is 2 or 3, and in two dimensions the last mesh number is one. -/
theorem C126_new (D : Diag) (lat : Mat3 ℝ) (orbPos : ℕ → Vec3 ℝ) (ext : ℝ) (kmesh : List ℕ) (emin emax : ℝ) (step : ℕ)
    (mu T gs : ℝ) (dim : ℕ) (delta : ℝ) (hT : 0 < T) :
    ((∃ L, Lind.new D lat orbPos ext kmesh emin emax step mu T gs dim delta = .ok L) ↔
      ∃ a b c, kmesh = [a, b, c] ∧ (dim = 3 ∨ dim = 2 ∧ c = 1)) ∧
    (∀ e, Lind.new D lat orbPos ext kmesh emin emax step mu T gs dim delta = .error e → e = .value) ∧
    ∀ L, Lind.new D lat orbPos ext kmesh emin emax step mu T gs dim delta = .ok L →
      0 < L.beta ∧ L.beta * (Config.KB * T) = 1 ∧ (L.dim = 2 ∨ L.dim = 3) ∧ L.dim = dim ∧ kmesh = [L.mesh.1, L.mesh.2.1, L.mesh.2.2] ∧
      L.omegas.length = step + 1 ∧ (∀ (i : ℕ) (om : ℝ), L.omegas[i]? = some om → om = emin + i * ((emax - emin) / step)) ∧
      L.D = D ∧ L.lat = lat ∧ L.orbPos = orbPos ∧ L.ext = ext ∧ L.mu = mu ∧ L.gs = gs ∧ L.delta = delta := by
  have hK : 0 < Config.KB * T := by
    have : 0 < Config.KB := by unfold Config.KB; norm_num
    positivity
  rcases kmesh with _ | ⟨a, _ | ⟨b, _ | ⟨c, _ | ⟨x, l⟩⟩⟩⟩
  · simp [Lind.new]
  · simp [Lind.new]
  · simp [Lind.new]
  · have e : Lind.new D lat orbPos ext [a, b, c] emin emax step mu T gs dim delta =
        if ¬ (dim = 2 ∨ dim = 3) then .error .value
        else if dim = 2 ∧ c ≠ 1 then .error .value
        else .ok { D := D, lat := lat, orbPos := orbPos, mesh := (a, b, c), omegas := npLinspace emin emax step, beta := 1 / (Config.KB * T), mu := mu, delta := delta, gs := gs, ext := ext, dim := dim } := by
      simp only [Lind.new, hK.ne', if_false]
    rw [e]
    by_cases h1 : dim = 2 ∨ dim = 3
    · by_cases h2 : dim = 2 ∧ c ≠ 1
      · rw [if_neg (not_not.2 h1), if_pos h2]
        refine ⟨⟨fun ⟨L, hL⟩ => by (cases hL), fun ⟨a', b', c', h, h'⟩ => by cases h; omega⟩, fun e he => by cases he; rfl, fun L hL => by cases hL⟩
      · rw [if_neg (not_not.2 h1), if_neg h2]
        refine ⟨⟨fun _ => ⟨a, b, c, rfl, by omega⟩, fun _ => ⟨_, rfl⟩⟩, fun e he => by (cases he), fun L hL => ?_⟩
        cases hL
        refine ⟨by positivity, one_div_mul_cancel hK.ne', h1, rfl, rfl, by simp [npLinspace], ?_, rfl, rfl, rfl, rfl, rfl, rfl, rfl⟩
        intro i om ho
        simp only [npLinspace, List.getElem?_map] at ho
        by_cases hi : i < step + 1
        · rw [List.getElem?_range hi] at ho
          simpa using ho.symm
        · rw [List.getElem?_eq_none (by simpa using hi)] at ho
          simp at ho
    · rw [if_pos h1]
      refine ⟨⟨fun ⟨L, hL⟩ => by (cases hL), fun ⟨a', b', c', h, h'⟩ => by cases h; omega⟩, fun e he => by cases he; rfl, fun L hL => by cases hL⟩
  · simp [Lind.new]

example : ∃ L, Lind.new kxDiag 1 (fun _ => 0) 1 [2, 1, 1] 0 10 1000 0 300 1 2 0.005 = .ok L :=
  (C126_new _ _ _ _ _ _ _ _ _ _ _ _ _ (by norm_num)).1.2 ⟨2, 1, 1, rfl, by simp⟩

theorem run_ac (L : Lind) (w : World) (buf : ℕ → Buf) (fortran : Bool) (pos : ℤ → Vec3 ℝ) (hops : List (Cell × Pair × ℂ))
    (hn : w.size ≤ L.numKpt) (r : ℕ) (hr : r < w.size) (iw : ℕ) (om : ℝ) (ho : L.omegas[iw]? = some om) :
    ∃ s kc, ∀ c d, L.acCond w buf fortran pos hops (some c) = .ok d →
      d r iw = (L.gs : ℂ) * Complex.I / ((cellSize L * L.numKpt : ℝ) : ℂ) *
        kuboSum L pos [] hops c s kc om / (L.ext : ℂ) := by
  cases hk : L.frac2cart ((buildKmeshGrid L.mesh).map L.grid2frac) with
  | error e =>
    refine ⟨(fun _ _ => 0, fun _ _ _ => 0), fun _ => 0, fun c d h => ?_⟩
    have := C77_kubo L w buf fortran pos [] hops (some c) hn r hr
    simp [h, acSpec, hk, bind, Except.bind, Except.map] at this
  | ok km =>
  cases hs : statesSpec L.D L.numKpt L.kFrac 1 with
  | error e =>
    refine ⟨(fun _ _ => 0, fun _ _ _ => 0), fun _ => 0, fun c d h => ?_⟩
    have := C77_kubo L w buf fortran pos [] hops (some c) hn r hr
    simp [h, acSpec, hk, hs, bind, Except.bind, Except.map] at this
  | ok s =>
  refine ⟨s, fun i => km.getD i 0, fun c d h => ?_⟩
  have := C77_kubo L w buf fortran pos [] hops (some c) hn r hr
  simp only [h, acSpec, hk, hs, bind, Except.bind, Except.map, Except.ok.injEq] at this
  rw [congrFun this iw]
  simp only [ho]

/-- C126: at every frequency the Hermitian part of the conductivity tensor is non-negative: light of any polarisation `e`, linear
or not, is absorbed and never amplified.  This holds for any eigenvalues and eigenvectors, number of processes, and backend. -/
theorem C126_absorption (L : Lind) (w : World) (buf : ℕ → Buf) (fortran : Bool) (pos : ℤ → Vec3 ℝ) (hops : List (Cell × Pair × ℂ))
    (hn : w.size ≤ L.numKpt) (hβ : 0 ≤ L.beta) (hδ : 0 ≤ L.delta) (hg : 0 ≤ L.gs) (hx : 0 ≤ L.ext)
    (d : Fin 3 → Fin 3 → ℕ → ℕ → ℂ) (hd : ∀ a b, L.acCond w buf fortran pos hops (some (a, b)) = .ok (d a b))
    (e : Fin 3 → ℂ) (r : ℕ) (hr : r < w.size) (iw : ℕ) (hiw : iw < L.omegas.length) :
    0 ≤ (∑ a, ∑ b, star (e a) * d a b r iw * e b).re := by
  obtain ⟨s, kc, h⟩ := run_ac L w buf fortran pos hops hn r hr iw L.omegas[iw] (List.getElem?_eq_getElem hiw)
  have hc : 0 ≤ cellSize L := by
    unfold cellSize norm3
    split <;> positivity
  have e1 : (∑ a, ∑ b, star (e a) * d a b r iw * e b) = ((L.gs / (cellSize L * L.numKpt) / L.ext : ℝ) : ℂ) *
      (Complex.I * ∑ a, ∑ b, star (e a) * kuboSum L pos [] hops (a, b) s kc L.omegas[iw] * e b) := by
    simp only [Finset.mul_sum]
    refine Finset.sum_congr rfl fun a _ => Finset.sum_congr rfl fun b _ => ?_
    rw [h (a, b) _ (hd a b)]
    push_cast
    ring
  rw [e1, Complex.re_ofReal_mul]
  exact mul_nonneg (by positivity) (kubo_re L pos [] hops s kc _ hβ hδ e)

/-- C126: every component of the conductivity obeys `σ(-ω) = conj σ(ω)`: a real field drives a real current. -/
theorem C126_real_current (L : Lind) (w : World) (buf : ℕ → Buf) (fortran : Bool) (pos : ℤ → Vec3 ℝ) (hops : List (Cell × Pair × ℂ))
    (hn : w.size ≤ L.numKpt) (c : Fin 3 × Fin 3) (d : ℕ → ℕ → ℂ) (hd : L.acCond w buf fortran pos hops (some c) = .ok d)
    (r : ℕ) (hr : r < w.size) (i j : ℕ) (om : ℝ) (hi : L.omegas[i]? = some om) (hj : L.omegas[j]? = some (-om)) :
    d r j = star (d r i) := by
  have h := C77_kubo L w buf fortran pos [] hops (some c) hn r hr
  rw [hd] at h
  simp only [acSpec, bind, Except.bind, Except.map] at h
  repeat' split at h
  all_goals first | cases h | skip
  have hi' := congrFun (Except.ok.inj h) i
  have hj' := congrFun (Except.ok.inj h) j
  simp only [hi, hj] at hi' hj'
  rw [hi', hj', kubo_conj]
  simp only [star_div₀, star_mul', Complex.star_def, Complex.conj_ofReal, Complex.conj_I]
  ring

/-- C126: in three dimensions the dielectric function at `q = 0` made from a diagonal component of the conductivity has, at every
positive frequency, a non-negative imaginary part and a non-negative loss function `-Im 1/ε`; the entry at frequency zero is not a
finite number.  With another dimension the function raises `ValueError`. -/
theorem C126_loss (L : Lind) (w : World) (buf : ℕ → Buf) (fortran : Bool) (pos : ℤ → Vec3 ℝ) (hops : List (Cell × Pair × ℂ))
    (hn : w.size ≤ L.numKpt) (hβ : 0 ≤ L.beta) (hδ : 0 ≤ L.delta) (hg : 0 ≤ L.gs) (hx : 0 ≤ L.ext) (backEps : ℝ) (hb : 0 < backEps)
    (c : Fin 3) (d : ℕ → ℕ → ℂ) (hd : L.acCond w buf fortran pos hops (some (c, c)) = .ok d) (r : ℕ) (hr : r < w.size) :
    (L.dim ≠ 3 → L.calcEpsilonQ0 backEps L.omegas (d r) = .error .value) ∧
    (L.dim = 3 → ∃ eps, L.calcEpsilonQ0 backEps L.omegas (d r) = .ok eps ∧ eps.length = L.omegas.length ∧
      ∀ (i : ℕ) (om : ℝ), L.omegas[i]? = some om → (om = 0 → eps[i]? = some none) ∧
        (0 < om → ∃ z : ℂ, eps[i]? = some (some z) ∧ 0 ≤ z.im ∧ 0 ≤ -(1 / z).im)) := by
  refine ⟨fun h => by simp [Lind.calcEpsilonQ0, h], fun h => ?_⟩
  have hre : ∀ i om, L.omegas[i]? = some om → 0 ≤ (d r i).re := by
    intro i om hi
    obtain ⟨s, kc, hk⟩ := run_ac L w buf fortran pos hops hn r hr i om hi
    have hc : 0 ≤ cellSize L := by
      unfold cellSize norm3
      split <;> positivity
    have h0 := kubo_re L pos [] hops s kc om hβ hδ (Pi.single c 1)
    have h1 : (∑ a, ∑ b, star ((Pi.single c 1 : Fin 3 → ℂ) a) * kuboSum L pos [] hops (a, b) s kc om * (Pi.single c 1 : Fin 3 → ℂ) b) =
        kuboSum L pos [] hops (c, c) s kc om := by
      rw [Finset.sum_eq_single c, Finset.sum_eq_single c]
      · simp
      · intro b _ hb; simp [hb]
      · simp
      · intro a _ ha; simp [ha]
      · simp
    rw [h1] at h0
    have : d r i = ((L.gs / (cellSize L * L.numKpt) / L.ext : ℝ) : ℂ) * (Complex.I * kuboSum L pos [] hops (c, c) s kc om) := by
      rw [hk _ _ hd]
      push_cast
      ring
    rw [this, Complex.re_ofReal_mul]
    exact mul_nonneg (by positivity) h0
  refine ⟨_, if_neg (not_not.2 h), by simp, fun i om hi => ?_⟩
  have hz : L.omegas.zipIdx[i]? = some (om, i) := by simp [List.getElem?_zipIdx, hi]
  rw [List.getElem?_map, hz]
  refine ⟨fun h0 => by simp [h0], fun h0 => ⟨_, congrArg some (if_neg h0.ne'), ?_⟩⟩
  have he : 0 < Lind.eps0 := by unfold Lind.eps0; norm_num
  have him : 0 ≤ (1 + Complex.I * ((4 * Real.pi / (backEps * Lind.eps0) : ℝ) : ℂ) * d r i / (om : ℂ)).im := by
    have : (1 + Complex.I * ((4 * Real.pi / (backEps * Lind.eps0) : ℝ) : ℂ) * d r i / (om : ℂ)).im =
        4 * Real.pi / (backEps * Lind.eps0) * (d r i).re / om := by
      rw [Complex.add_im, Complex.div_ofReal_im, mul_assoc, Complex.I_mul_im, Complex.re_ofReal_mul]
      simp
    rw [this]
    have := hre i om hi
    positivity
  refine ⟨him, ?_⟩
  rw [one_div, Complex.inv_im, neg_div, neg_neg]
  exact div_nonneg him (Complex.normSq_nonneg _)

theorem epsilon_rows (L : Lind) (backEps : ℝ) (num : ℕ) (dp : ℕ → ℕ → ℂ) (qs : List (Vec3 ℝ)) (k : ℕ) (e0 : ℕ → ℕ → Option ℂ)
    (hk : k + qs.length ≤ num) :
    ∃ e, (qs.zipIdx k).foldlM (fun (e : ℕ → ℕ → Option ℂ) (p : Vec3 ℝ × ℕ) =>
      let vq := L.getVq backEps p.1
      if p.2 < num then
        (.ok (Function.update e p.2 fun iw => if iw < L.omegas.length then vq.map fun v : ℝ => 1 - (v : ℂ) * dp p.2 iw else some 0) :
          Except LindErr (ℕ → ℕ → Option ℂ))
      else .error .index) e0 = .ok e ∧ (∀ i < k, e i = e0 i) ∧
      ∀ i q, qs[i]? = some q → ∀ iw < L.omegas.length, e (k + i) iw = (L.getVq backEps q).map fun v : ℝ => 1 - (v : ℂ) * dp (k + i) iw := by
  induction qs generalizing k e0 with
  | nil => exact ⟨e0, rfl, fun _ _ => rfl, fun i q h => by simp at h⟩
  | cons q qs ih =>
    simp only [List.length_cons] at hk
    obtain ⟨e, h1, h2, h3⟩ := ih (k + 1) (Function.update e0 k fun iw => if iw < L.omegas.length then
      (L.getVq backEps q).map fun v : ℝ => 1 - (v : ℂ) * dp k iw else some 0) (by omega)
    refine ⟨e, ?_, ?_, ?_⟩
    · rw [List.zipIdx_cons, List.foldlM_cons]
      simp only [show k < num by omega, if_true]
      exact h1
    · intro i hi
      rw [h2 i (by omega), Function.update_of_ne (by omega)]
    · intro i q' hq iw hiw
      cases i with
      | zero =>
        simp only [List.getElem?_cons_zero, Option.some.injEq] at hq
        subst hq
        rw [add_zero, h2 k (by omega), Function.update_self]
        simp [hiw]
      | succ i =>
        rw [List.getElem?_cons_succ] at hq
        have := h3 i q' hq iw hiw
        rw [show k + (i + 1) = k + 1 + i by omega]
        exact this

/-- C126: `calc_epsilon` returns `1 - v(q) Π(q, ω)` with the Coulomb interaction `2π / (ε₀ ε_b |q|)` in two dimensions and
`4π / (ε₀ ε_b |q|²)` in three, and no finite number for `q = 0`. -/
theorem C126_epsilon (L : Lind) (backEps : ℝ) (qs : List (Vec3 ℝ)) (num : ℕ) (hnum : qs.length ≤ num)
    (dp : ℕ → ℕ → ℂ) : ∃ e, L.calcEpsilon backEps (.array qs) num dp = .ok e ∧
      ∀ i q, qs[i]? = some q → ∀ iw < L.omegas.length,
        (norm3 q = 0 → e i iw = none) ∧
        (norm3 q ≠ 0 → e i iw = some (1 - ((if L.dim = 2 then 2 * Real.pi / (Lind.eps0 * backEps * norm3 q)
          else 4 * Real.pi / (Lind.eps0 * backEps * norm3 q ^ 2) : ℝ) : ℂ) * dp i iw)) := by
  obtain ⟨e, h1, _, h3⟩ := epsilon_rows L backEps num dp qs 0 (fun _ _ => some 0) (by omega)
  refine ⟨e, h1, fun i q hq iw hiw => ?_⟩
  have := h3 i q hq iw hiw
  rw [zero_add] at this
  rw [this]
  refine ⟨fun h => by simp [Lind.getVq, h], fun h => ?_⟩
  simp only [Lind.getVq, h, if_false, Option.map_some]
  congr 4
  split
  · rw [div_mul_eq_mul_div, div_mul_eq_mul_div, div_div, one_mul]
  · rw [div_mul_eq_mul_div, div_mul_eq_mul_div, div_div, one_mul]

/-- C126 (a list for the q-points fails): `calc_epsilon` means to convert any argument to an array, but raises for every argument
that is not one. -/
theorem C126_epsilon_list (L : Lind) (backEps : ℝ) (qs : List (Vec3 ℝ)) (num : ℕ) (dp : ℕ → ℕ → ℂ) (e : ℕ → ℕ → Option ℂ) :
    L.calcEpsilon backEps (.other qs) num dp ≠ .ok e := by
  cases qs <;> simp [Lind.calcEpsilon]

theorem screen_re (v s : ℝ) (z : ℂ) (hv : 0 ≤ v) (hs : 0 ≤ s) (hz : z.re ≤ 0) : 1 ≤ (1 - (v : ℂ) * ((s : ℂ) * z)).re := by
  rw [Complex.sub_re, Complex.one_re, Complex.re_ofReal_mul, Complex.re_ofReal_mul]
  have := mul_nonneg hv (mul_nonneg hs (neg_nonneg.2 hz))
  linarith

/-- C126: a static potential is screened and never enhanced.  At frequency zero the polarizability of either function has a
non-positive real part, so that the dielectric function from `calc_epsilon` has real part at least one, at every q-point other than
zero, on every process, for any number of them. -/
theorem C126_screening (L : Lind) (w : World) (buf : ℕ → Buf) (fortran : Bool) (hdim : L.dim = 2 ∨ L.dim = 3)
    (hn : w.size ≤ L.numKpt) (hβ : 0 ≤ L.beta) (hg : 0 ≤ L.gs) (hx : 0 ≤ L.ext) (backEps : ℝ) (hb : 0 < backEps) (r : ℕ) (hr : r < w.size)
    (iw : ℕ) (hiw : L.omegas[iw]? = some 0) (d : ℕ → ℕ → ℕ → ℂ) (qc : List (Vec3 ℝ))
    (hd : (∃ qs, qs.length = qc.length ∧ L.dynPolRegular w buf fortran qs = .ok d) ∨ L.dynPolArbitrary w buf fortran qc = .ok d) :
    (∀ iq < qc.length, (d r iq iw).re ≤ 0) ∧
    ∃ e, L.calcEpsilon backEps (.array qc) qc.length (d r) = .ok e ∧
      ∀ iq q, qc[iq]? = some q → norm3 q ≠ 0 → ∃ z, e iq iw = some z ∧ 1 ≤ z.re := by
  have hlen : iw < L.omegas.length := (List.getElem?_eq_some_iff.1 hiw).1
  have hf := factor_nonneg L hg
  have key : ∀ (S z : ℂ) (c : ℝ), S.re ≤ 0 → 0 ≤ c → z = (c : ℂ) * (S * (lindhardFactor L : ℂ) / (L.ext : ℂ)) → z.re ≤ 0 := by
    intro S z c hS hc hz
    have : z = ((c * (lindhardFactor L / L.ext) : ℝ) : ℂ) * S := by
      rw [hz]
      push_cast
      ring
    rw [this, Complex.re_ofReal_mul]
    exact mul_nonpos_of_nonneg_of_nonpos (by positivity) hS
  have hneg : ∀ iq < qc.length, (d r iq iw).re ≤ 0 := by
    intro iq hiq
    rcases hd with ⟨qs, hl, hd⟩ | hd
    · have h := (C45_rows L w buf fortran hdim hn r hr).1 qs
      rw [hd] at h
      obtain ⟨t, h1, h2⟩ := map_eq_ok h.symm
      have hq : qs[iq]? = some (qs[iq]'(by omega)) := List.getElem?_eq_getElem (by omega)
      obtain ⟨B, s, s', _, _, _, hv⟩ := reg_value L qs t h1 iq _ hq
      have h3 : d r iq iw = _ := (congrFun (congrFun h2 iq) iw).symm
      refine key _ _ ((w.size : ℝ) ^ (qs.length - 1 - iq)) (lind_static L L.numKpt s s' (frac2cartRow B 0 (L.grid2frac (qs[iq]'(by omega)))) hβ) (by positivity) ?_
      rw [h3, hv iw 0 hiw]
      push_cast
      rfl
    · have h := (C45_rows L w buf fortran hdim hn r hr).2 qc
      rw [hd] at h
      obtain ⟨t, h1, h2⟩ := map_eq_ok h.symm
      obtain ⟨s, s', hv⟩ := arb_value L qc t h1 iq _ (List.getElem?_eq_getElem hiq)
      have h3 : d r iq iw = _ := (congrFun (congrFun h2 iq) iw).symm
      refine key _ _ ((w.size : ℝ) ^ (qc.length - 1 - iq)) (lind_static L L.numKpt s s' qc[iq] hβ) (by positivity) ?_
      rw [h3, hv iw 0 hiw]
      push_cast
      rfl
  refine ⟨hneg, ?_⟩
  obtain ⟨e, he, h⟩ := C126_epsilon L backEps qc qc.length le_rfl (d r)
  refine ⟨e, he, fun iq q hq h0 => ⟨_, (h iq q hq iw hlen).2 h0, ?_⟩⟩
  have he : 0 < Lind.eps0 := by unfold Lind.eps0; norm_num
  have hq0 : 0 ≤ norm3 q := by unfold norm3; positivity
  have := screen_re (if L.dim = 2 then 2 * Real.pi / (Lind.eps0 * backEps * norm3 q)
          else 4 * Real.pi / (Lind.eps0 * backEps * norm3 q ^ 2)) 1 (d r iq iw) (by split <;> positivity) zero_le_one
    (hneg iq (List.getElem?_eq_some_iff.1 hq).1)
  rwa [Complex.ofReal_one, one_mul] at this

/-- C126: for a q-point of the mesh, `Π(-q, -ω) = conj Π(q, ω)` (a real potential causes a real density), and for `ω ≥ 0` the
imaginary parts at `q` and `-q` have a non-positive sum: a standing wave `cos(q·r) cos(ωt)` is damped and never amplified.  For one
process or one q-point per call (several of both are wrong, `C45_wrong`). -/
theorem C126_damping (L : Lind) (w : World) (buf : ℕ → Buf) (fortran : Bool) (hdim : L.dim = 2 ∨ L.dim = 3)
    (hn : w.size ≤ L.numKpt) (r : ℕ) (hr : r < w.size) (qs qs' : List Grid) (hw : w.size = 1 ∨ qs.length ≤ 1 ∧ qs'.length ≤ 1)
    (d d' : ℕ → ℕ → ℕ → ℂ) (hd : L.dynPolRegular w buf fortran qs = .ok d) (hd' : L.dynPolRegular w buf fortran qs' = .ok d')
    (iq iq' : ℕ) (x y z : ℤ) (hq : qs[iq]? = some (x, y, z)) (hq' : qs'[iq']? = some (-x, -y, -z)) :
    (∀ i j om, L.omegas[i]? = some om → L.omegas[j]? = some (-om) → d' r iq' j = star (d r iq i)) ∧
    (0 ≤ L.beta → 0 ≤ L.delta → 0 ≤ L.gs → 0 ≤ L.ext → ∀ i om, L.omegas[i]? = some om → 0 ≤ om →
      (d r iq i).im + (d' r iq' i).im ≤ 0) := by
  have h := (C45_partial L w buf fortran hdim hn r hr).1 qs (by omega)
  have h' := (C45_partial L w buf fortran hdim hn r hr).1 qs' (by omega)
  rw [hd] at h
  rw [hd'] at h'
  obtain ⟨B, s, s1, hB, hs, hk, hv⟩ := reg_value L qs (d r) h.symm iq _ hq
  obtain ⟨B', s', s2, hB', hs', hk', hv'⟩ := reg_value L qs' (d' r) h'.symm iq' (negGrid (x, y, z)) hq'
  rw [hB] at hB'
  rw [hs] at hs'
  cases hB'
  cases hs'
  rw [grid_neg] at hv'
  constructor
  · intro i j om hi hj
    rw [hv i om hi, hv' j _ hj, lind_conj L (x, y, z) s s1 s2 _ om hk hk']
    simp only [star_div₀, star_mul', Complex.star_def, Complex.conj_ofReal]
  · intro hβ hδ hg hx i om hi hom
    have := lind_im L (x, y, z) s s1 s2 (frac2cartRow B 0 (L.grid2frac (x, y, z))) om hk hk' hβ hδ hom
    rw [hv i om hi, hv' i om hi]
    have hf := factor_nonneg L hg
    have e : ∀ S : ℂ, (S * (lindhardFactor L : ℂ) / (L.ext : ℂ)).im = lindhardFactor L / L.ext * S.im := by
      intro S
      rw [show S * (lindhardFactor L : ℂ) / (L.ext : ℂ) = ((lindhardFactor L / L.ext : ℝ) : ℂ) * S by push_cast; ring,
        Complex.im_ofReal_mul]
    rw [e, e, ← mul_add]
    exact mul_nonpos_of_nonneg_of_nonpos (by positivity) this

/-! ## Examples -/

/-- Two levels with energies 0 and 1, one k-point. -/
noncomputable def twoLevel : Lind where
  D := { nb := 2, setHam := fun _ _ h => .ok h, argsort := fun _ => [0, 1],
         zheev := fun _ => some (fun b => b, fun o b => if o = b then 1 else 0) }
  lat := 1
  orbPos := fun i => ![i, 0, 0]
  mesh := (1, 1, 1)
  omegas := [-1, 0, 1]
  beta := 1
  mu := 0
  delta := 1
  gs := 1
  ext := 1
  dim := 3

theorem twoLevel_states (c : ℤ) : statesSpec twoLevel.D twoLevel.numKpt twoLevel.kFrac c =
    .ok (fun i b => if i < twoLevel.numKpt then (b : ℝ) else 0, fun i b o => if i < twoLevel.numKpt then (if o = b then 1 else 0) else 0) := by
  have he : ∀ k, eigen twoLevel.D k c = .ok (fun b => (b : ℝ), fun o b => if o = b then 1 else 0) := fun k => rfl
  rw [statesSpec_eq, rowsOut_ok, firstErr_none]
  refine ⟨fun i _ => ⟨_, he _⟩, ?_⟩
  simp only [eigVal, he, Except.toOption, Option.getD_some]

/-- A hopping term over a distance of 1 nm between the two orbitals: every component of the conductivity can be computed on one
process, and there is absorption along x at frequency 1, the energy difference of the levels. -/
theorem twoLevel_absorbs (w : World) (hw : w.size = 1) (buf : ℕ → Buf) (fortran : Bool) :
    (∀ a b, ∃ d, twoLevel.acCond w buf fortran (fun i => ![i, 0, 0]) [((0, 0, 0), (0, 1), 1)] (some (a, b)) = .ok d) ∧
    ∀ d, twoLevel.acCond w buf fortran (fun i => ![i, 0, 0]) [((0, 0, 0), (0, 1), 1)] (some (0, 0)) = .ok d → 0 < (d 0 2).re := by
  have hdet : twoLevel.lat.det ≠ 0 := by simp [twoLevel]
  have hn1 : twoLevel.numKpt = 1 := by decide
  have hn : w.size ≤ twoLevel.numKpt := by omega
  have hspec : ∀ a b, ∃ d, acSpec twoLevel (fun i => ![i, 0, 0]) [] [((0, 0, 0), (0, 1), 1)] (some (a, b)) = .ok d := by
    intro a b
    simp only [acSpec, Lind.frac2cart, recip_some _ hdet, twoLevel_states, bind, Except.bind]
    exact ⟨_, rfl⟩
  constructor
  · intro a b
    obtain ⟨d, hd⟩ := hspec a b
    have := C77_kubo twoLevel w buf fortran (fun i => ![i, 0, 0]) [] [((0, 0, 0), (0, 1), 1)] (some (a, b)) hn 0 w.pos
    rw [hd] at this
    obtain ⟨d', h, _⟩ := map_eq_ok this
    exact ⟨d', h⟩
  · intro d hd
    have := C77_kubo twoLevel w buf fortran (fun i => ![i, 0, 0]) [] [((0, 0, 0), (0, 1), 1)] (some (0, 0)) hn 0 w.pos
    rw [hd] at this
    simp only [acSpec, Lind.frac2cart, recip_some _ hdet, twoLevel_states, bind, Except.bind, Except.map, Except.ok.injEq] at this
    rw [congrFun this 2]
    have ho : twoLevel.omegas[2]? = some 1 := rfl
    have hc : cellSize twoLevel = 1 := by simp [cellSize, twoLevel]
    have hp : ∀ kc, velocity 1 (fun i => ![(i : ℝ), 0, 0]) [] [((0, 0, 0), (0, 1), 1)] kc 0 0 1 *
        velocity 1 (fun i => ![(i : ℝ), 0, 0]) [] [((0, 0, 0), (0, 1), 1)] kc 0 1 0 = 1 := by
      intro kc
      rw [← velocity_star, ← velMat_eq, velMat_apply]
      simp [acHops, velTerm, hopDrNm, frac2cartRow]
      rw [show ∀ x : ℂ, -(Complex.I * x * (Complex.I * (starRingEnd ℂ) x)) = (starRingEnd ℂ) x * x by
        intro x; linear_combination (-(x * (starRingEnd ℂ) x)) * Complex.I_sq]
      rw [← Complex.normSq_eq_conj_mul_self, eiPhase, Complex.normSq_apply]
      simp [← sq]
    simp only [ho, hc, hn1, kuboSum, kuboTerm, Finset.sum_range_one]
    generalize hkc : List.getD _ 0 (0 : Vec3 ℝ) = kc
    simp [matEl, twoLevel, Finset.sum_range_succ]
    rw [hp, mul_comm (velocity _ _ _ _ _ _ 1 0), hp, if_pos (by norm_num), if_pos (by norm_num)]
    have hlt : Real.exp 1 > 1 := Real.one_lt_exp_iff.2 (by norm_num)
    have hg : (1 + Real.exp 1)⁻¹ < 2⁻¹ := by
      gcongr
      linarith
    rw [show (1 + Complex.exp 1 : ℂ)⁻¹ = (((1 + Real.exp 1)⁻¹ : ℝ) : ℂ) by push_cast; rfl]
    generalize (1 + Real.exp 1)⁻¹ = y at *
    simp [Complex.div_im, Complex.normSq_apply]
    norm_num
    rw [show ((1 / 2 - (y : ℂ)) / -1) = ((y - 1 / 2 : ℝ) : ℂ) by push_cast; ring, Complex.ofReal_re]
    linarith

/-- The polarizability of the two-level system on one process for a q-point and its negative; frequency zero is on the grid, and
so are opposite frequencies. -/
example (w : World) (hw : w.size = 1) (buf : ℕ → Buf) (fortran : Bool) (q : Grid) :
    (∃ d, twoLevel.dynPolRegular w buf fortran [q, negGrid q] = .ok d) ∧ twoLevel.omegas[1]? = some (0 : ℝ) ∧
      twoLevel.omegas[0]? = some (-1 : ℝ) ∧ twoLevel.omegas[2]? = some (1 : ℝ) := by
  refine ⟨?_, rfl, rfl, rfl⟩
  have hdet : twoLevel.lat.det ≠ 0 := by simp [twoLevel]
  have hn1 : twoLevel.numKpt = 1 := by decide
  have h := (C45_partial twoLevel w buf fortran (Or.inr rfl) (by omega) 0 w.pos).1 [q, negGrid q] (Or.inl hw)
  have hs := twoLevel_states 2
  obtain ⟨s1, h1, _⟩ := statesKq_ok twoLevel q _ hs
  obtain ⟨s2, h2, _⟩ := statesKq_ok twoLevel (negGrid q) _ hs
  have hm : [q, negGrid q].mapM (statesKq twoLevel) = .ok [s1, s2] := by
    simp only [List.mapM_cons, List.mapM_nil, h1, h2]
    rfl
  simp only [regSpec, Lind.frac2cart, recip_some _ hdet, hs, hm, bind, Except.bind] at h
  obtain ⟨d, h3, _⟩ := map_eq_ok h
  exact ⟨d, h3⟩

end Verif.Props

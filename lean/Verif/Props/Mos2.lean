import Verif.Proof.Mos2
import Verif.Props.UnitarySym

/-! # C112: the MoS2 monolayer with spin-orbit coupling -/

namespace Verif.Props

open PrimCell SK Mos2 Materials

/-- **C112 (model).** `make_mos2_soc` returns the documented model: a cell with 22 orbitals, the eleven orbitals with spin up and then
the same with spin down, the two-centre hopping integrals on all bonds up to 0.32 nm, without change of spin, and the matrix elements
of `λ L.S` on each atom; there are no other hoppings. -/
theorem C112_mos2 (H : HashFns ℝ ℂ (List String)) (HS : SCHash ℝ ℂ (List String)) (hO : ∀ l, l ≠ [] → H.orb l ≠ H.orb [])
    {tree : DistMatrix} (ht : IsDistMatrix tree) :
    ∃ s, mos2Soc H HS tree = .ok s ∧ s.lat = lattice ∧ s.origin = 0 ∧ s.locked = false ∧ s.orbs.length = 22 ∧
      (∀ x, x < 22 → s.orbs[x]? = some ⟨Mos2.position (atom (x % 11)), Mos2.energy (x % 11),
        [(names.getD (x % 11) ("", "")).1, (names.getD (x % 11) ("", "")).2, if x < 11 then "up" else "down"]⟩) ∧
      ∀ R (x y : ℕ), x < 22 → y < 22 → s.hops.get R x y = hopping R x y := by
  obtain ⟨s, a1, a2, a3, a4, a5, -, -, -, a6, a7⟩ := mo_build H HS hO ht
  exact ⟨s, a1, a2, a3, a4, a5, a6, a7⟩

/-- **C112 (bonds).** The bonds listed in the specification are all pairs of sites of the layer with a distance up to 0.32 nm:
the search within two cells misses none. -/
theorem C112_bonds (R : Cell) (hR : R.2.2 = 0) (x y : ℕ) :
    (R.1, R.2.1) ∈ bonds (atom (x % 11)) (atom (y % 11)) ↔ 0 < norm3 (displacement R x y) ∧ norm3 (displacement R x y) ≤ 0.32 := by
  let s : PrimCell ℝ ℂ (List String) := { init (Λ := List String) (E := ℂ) ⟨fun l => l.length, fun l => l.length⟩ mosLat 0 with orbs := moOrbs }
  have hm : MoCell s 1 := by
    refine ⟨mo_lat, rfl, mo_length, ?_⟩
    intro x hx
    have hx' : x < 11 := by rw [← mo_length]; exact hx
    obtain ⟨o, h1, h2, -, h4, h5⟩ := mo_orb x hx'
    rw [Nat.mod_eq_of_lt hx']
    exact ⟨o, h1, h2, h5, h4⟩
  have hn : s.numOrb = 11 := mo_length
  have hx' : x % 11 < 11 := Nat.mod_lt _ (by norm_num)
  have hy' : y % 11 < 11 := Nat.mod_lt _ (by norm_num)
  have h := (mo_bond hm R (x % 11) (y % 11) (by omega) (by omega)).1
  rw [SkBond, mo_vec hm R _ _ (by omega) (by omega)] at h
  have hd : displacement R (x % 11) (y % 11) = displacement R x y := by
    funext k
    simp [displacement]
  rw [hd] at h
  simp only [Nat.mod_mod] at h
  constructor
  · intro hb
    exact (h.2 ⟨hR, hb⟩).2
  · intro hb
    have hlen : displacement R x y 0 ^ 2 + displacement R x y 1 ^ 2 ≤ 0.32 ^ 2 := by
      have h1 := Real.sq_sqrt (show 0 ≤ displacement R x y 0 ^ 2 + displacement R x y 1 ^ 2 + displacement R x y 2 ^ 2 by positivity)
      have h2 := hb.2
      unfold norm3 at h2
      have h3 : Real.sqrt (displacement R x y 0 ^ 2 + displacement R x y 1 ^ 2 + displacement R x y 2 ^ 2) ^ 2 ≤ 0.32 ^ 2 :=
        pow_le_pow_left₀ (Real.sqrt_nonneg _) h2 2
      rw [h1] at h3
      nlinarith [sq_nonneg (displacement R x y 2)]
    have hp : ∀ i : ℕ, 0 ≤ Mos2.position (atom i) 0 ∧ Mos2.position (atom i) 0 ≤ 0.66667 ∧ 0 ≤ Mos2.position (atom i) 1 ∧ Mos2.position (atom i) 1 ≤ 0.33333 := by
      intro i
      unfold Mos2.position
      split_ifs <;> simp <;> norm_num
    obtain ⟨p1, p2, p3, p4⟩ := hp (x % 11)
    obtain ⟨q1, q2, q3, q4⟩ := hp (y % 11)
    have hy := abs_le_of_sq_le_sq' (show displacement R x y 1 ^ 2 ≤ 0.32 ^ 2 by nlinarith [sq_nonneg (displacement R x y 0)]) (by norm_num)
    have hx := abs_le_of_sq_le_sq' (show displacement R x y 0 ^ 2 ≤ 0.32 ^ 2 by nlinarith [sq_nonneg (displacement R x y 1)]) (by norm_num)
    simp [displacement, lattice, Fin.sum_univ_three] at hx hy
    have r2 : |R.2.1| ≤ 2 := by
      rw [abs_le]
      constructor
      · by_contra hc
        have : (R.2.1 : ℝ) ≤ -3 := by exact_mod_cast (by omega : R.2.1 ≤ -3)
        norm_num at hy
        nlinarith
      · by_contra hc
        have : (3 : ℝ) ≤ R.2.1 := by exact_mod_cast (by omega : 3 ≤ R.2.1)
        norm_num at hy
        nlinarith
    have r2' : (-2 : ℝ) ≤ R.2.1 ∧ (R.2.1 : ℝ) ≤ 2 := by
      obtain ⟨a, b⟩ := abs_le.1 r2
      exact ⟨by exact_mod_cast a, by exact_mod_cast b⟩
    have r1 : |R.1| ≤ 2 := by
      rw [abs_le]
      constructor
      · by_contra hc
        have : (R.1 : ℝ) ≤ -3 := by exact_mod_cast (by omega : R.1 ≤ -3)
        norm_num at hx
        nlinarith
      · by_contra hc
        have : (3 : ℝ) ≤ R.1 := by exact_mod_cast (by omega : 3 ≤ R.1)
        norm_num at hx
        nlinarith
    exact (h.1 ⟨⟨r1, r2, by rw [hR]; simp⟩, hb⟩).2

/-- Time reversal of `L.S`. -/
theorem spinOrbit_flip (a b : Tens) (σ τ : Fin 2) :
    Soc.spinOrbit a (1 - σ) b (1 - τ) * (if τ = 0 then 1 else -1) = (if σ = 0 then 1 else -1) * star (Soc.spinOrbit a σ b τ) := by
  have h : ∀ k, star (Soc.angMom k a b) = -Soc.angMom k a b := by
    intro k
    simp [Soc.angMom]
  simp only [Soc.spinOrbit, Fin.sum_univ_three, star_add, star_mul', h]
  fin_cases σ <;> fin_cases τ <;> simp [Soc.pauli] <;> ring

/-- The partner with the other spin. -/
def flipSpin (x : ℕ) : ℕ := (x + 11) % 22

theorem twoCentre_real (v : Par) (hv : v.real) (n : Vec3 ℝ) (a b : Tens) : star (twoCentre v n a b) = twoCentre v n a b := by
  obtain ⟨h1, h2, h3, h4, h5, h6, h7, h8, h9, h10⟩ := hv
  cases a <;> cases b <;>
    simp only [twoCentre, Complex.star_def, map_add, map_mul, map_neg, Complex.conj_ofReal, Complex.conj_eq_iff_im.2 h1, Complex.conj_eq_iff_im.2 h2,
      Complex.conj_eq_iff_im.2 h3, Complex.conj_eq_iff_im.2 h4, Complex.conj_eq_iff_im.2 h5, Complex.conj_eq_iff_im.2 h6,
      Complex.conj_eq_iff_im.2 h7, Complex.conj_eq_iff_im.2 h8, Complex.conj_eq_iff_im.2 h9, Complex.conj_eq_iff_im.2 h10]

theorem twoCentreHop_real (R : Cell) (x y : ℕ) : star (twoCentreHop R x y) = twoCentreHop R x y :=
  twoCentre_real _ (by simp [par, Par.real]) _ _ _

theorem hopping_flip (R : Cell) (x y : ℕ) (hx : x < 22) (hy : y < 22) :
    (hopping R (flipSpin x) (flipSpin y)).getD 0 * (if y < 11 then 1 else -1) = (if x < 11 then 1 else -1) * star ((hopping R x y).getD 0) := by
  classical
  have m : ∀ x : ℕ, flipSpin x % 11 = x % 11 := by intro x; unfold flipSpin; omega
  have sp : ∀ x : ℕ, x < 22 → Mos2.spin (flipSpin x) = 1 - Mos2.spin x := by decide +kernel
  have s0 : ∀ x : ℕ, x < 11 ↔ Mos2.spin x = 0 := by
    intro x
    unfold Mos2.spin
    split_ifs with h <;> simp [h]
  have hd : displacement R (flipSpin x) (flipSpin y) = displacement R x y := by
    funext k
    simp only [displacement, m]
  have h2 : twoCentreHop R (flipSpin x) (flipSpin y) = twoCentreHop R x y := by simp only [twoCentreHop, hd, m]
  have h3 : ls (flipSpin x) (flipSpin y) * (if Mos2.spin y = 0 then 1 else -1) = (if Mos2.spin x = 0 then 1 else -1) * star (ls x y) := by
    simp only [ls, m, sp x hx, sp y hy]
    exact spinOrbit_flip _ _ _ _
  have h4 : ls (flipSpin x) (flipSpin y) = 0 ↔ ls x y = 0 := by
    have e1 : (if Mos2.spin y = 0 then (1 : ℂ) else -1) ≠ 0 := by split_ifs <;> simp
    have e2 : (if Mos2.spin x = 0 then (1 : ℂ) else -1) ≠ 0 := by split_ifs <;> simp
    constructor
    · intro h
      rw [h, zero_mul] at h3
      have := (mul_eq_zero.1 h3.symm).resolve_left e2
      simpa using this
    · intro h
      rw [h, star_zero, mul_zero] at h3
      exact (mul_eq_zero.1 h3).resolve_right e1
  have h5 : Mos2.spin (flipSpin x) = Mos2.spin (flipSpin y) ↔ Mos2.spin x = Mos2.spin y := by
    rw [sp x hx, sp y hy]
    exact sub_right_inj
  simp only [hopping, m, h2, h5, h4, s0, ne_eq]
  by_cases c1 : Mos2.spin x = Mos2.spin y ∧ R.2.2 = 0 ∧ (R.1, R.2.1) ∈ bonds (atom (x % 11)) (atom (y % 11))
  · rw [if_pos c1, if_pos c1, c1.1]
    simp only [Option.getD_some]
    rw [twoCentreHop_real, mul_comm]
  · rw [if_neg c1, if_neg c1]
    by_cases c2 : R = 0 ∧ atom (x % 11) = atom (y % 11) ∧ ¬ ls x y = 0
    · rw [if_pos c2, if_pos c2]
      simp only [Option.getD_some, star_mul']
      rw [mul_assoc, h3]
      simp only [Complex.star_def, Complex.conj_ofReal]
      ring
    · rw [if_neg c2, if_neg c2]
      simp

/-- Time reversal: orbital `x` goes to the orbital with the opposite spin, with the sign of the spin. -/
noncomputable def trMat (n : ℕ) : Matrix (Fin n) (Fin n) ℂ := Matrix.of fun a i => if (a : ℕ) = flipSpin i then (if (i : ℕ) < 11 then 1 else -1) else 0

theorem flipSpin_spec : ∀ i : ℕ, i < 22 → flipSpin i < 22 ∧ flipSpin (flipSpin i) = i ∧ (flipSpin i < 11 ↔ ¬ i < 11) := by
  intro i hi
  unfold flipSpin
  omega

theorem mos_anti {s : PrimCell ℝ ℂ (List String)} (hn : s.numOrb = 22)
    (ho : ∀ x, x < 22 → ∃ o, s.orbs[x]? = some o ∧ o.energy = Mos2.energy (x % 11))
    (hh : ∀ R (x y : ℕ), x < 22 → y < 22 → s.hops.get R x y = hopping R x y) :
    AntiSym s 1 (trMat s.numOrb) (fun _ => 0) ∧ (trMat s.numOrb).transpose = -trMat s.numOrb ∧ (trMat s.numOrb).conjTranspose * trMat s.numOrb = 1 := by
  have hf := flipSpin_spec
  let π : Equiv.Perm (Fin s.numOrb) :=
    { toFun := fun i => ⟨flipSpin i, by have := (hf i (by have := i.2; omega)).1; omega⟩
      invFun := fun i => ⟨flipSpin i, by have := (hf i (by have := i.2; omega)).1; omega⟩
      left_inv := fun i => Fin.ext (hf i (by have := i.2; omega)).2.1
      right_inv := fun i => Fin.ext (hf i (by have := i.2; omega)).2.1 }
  let u : ℕ → ℂ := fun i => if i < 11 then 1 else -1
  have hU : trMat s.numOrb = Matrix.of fun a i => if a = π i then u i else 0 := by
    ext a i
    simp only [trMat, Matrix.of_apply, u, π, Equiv.coe_fn_mk, Fin.ext_iff]
  rw [hU]
  refine ⟨?_, ?_, ?_⟩
  · refine antiSym_of_perm (by simp) π (fun i => u i) _ fun R i j => ?_
    have hi : (i : ℕ) < 22 := by have := i.2; omega
    have hj : (j : ℕ) < 22 := by have := j.2; omega
    have hcell : cellMul 1 R + 0 - 0 = R := by
      refine Prod.ext ?_ (Prod.ext ?_ ?_) <;> simp [cellMul, Matrix.one_apply]
    change fullAmp s (cellMul 1 R + 0 - 0) (flipSpin i) (flipSpin j) * u j = u i * star (fullAmp s R i j)
    rw [hcell]
    unfold fullAmp amp
    rw [hh R _ _ (hf i hi).1 (hf j hj).1, hh R _ _ hi hj, add_mul, star_add, mul_add, hopping_flip R i j hi hj]
    congr 1
    obtain ⟨o1, e1, e2⟩ := ho i hi
    obtain ⟨o2, e3, e4⟩ := ho (flipSpin i) (hf i hi).1
    have hm : flipSpin i % 11 = i % 11 := by unfold flipSpin; omega
    have hij : flipSpin i = flipSpin j ↔ (i : ℕ) = j := by
      constructor
      · intro h
        rw [← (hf i hi).2.1, h, (hf j hj).2.1]
      · intro h; rw [h]
    rw [e1, e3]
    simp only [Option.elim_some, e2, e4, hm, hij]
    by_cases hc : R = 0 ∧ (i : ℕ) = j
    · rw [if_pos hc, hc.2]
      simp [mul_comm]
    · rw [if_neg hc]
      simp
  · ext a i
    have hi : (i : ℕ) < 22 := by have := i.2; omega
    have h : i = π a ↔ a = π i := by
      constructor <;> rintro rfl
      · exact (π.left_inv a).symm
      · exact (π.left_inv i).symm
    simp only [Matrix.transpose_apply, Matrix.of_apply, Matrix.neg_apply]
    by_cases hx : a = π i
    · rw [if_pos (h.2 hx), if_pos hx, hx]
      change u (flipSpin i) = -u i
      simp only [u, (hf i hi).2.2]
      split_ifs <;> simp
    · rw [if_neg hx, if_neg (fun h' => hx (h.1 h'))]; simp
  · ext i j
    rw [Matrix.mul_apply]
    simp only [Matrix.conjTranspose_apply, Matrix.of_apply, mul_ite, mul_zero, Finset.sum_ite_eq', Finset.mem_univ, if_true,
      π.injective.eq_iff, Matrix.one_apply]
    by_cases hij : i = j
    · subst hij
      simp only [if_true, u]
      split_ifs <;> simp
    · rw [if_neg (fun h => hij h.symm), if_neg hij]; simp

/-- The synchronised cell. -/
theorem mos_synced (H : HashFns ℝ ℂ (List String)) (HS : SCHash ℝ ℂ (List String)) (hO : ∀ l, l ≠ [] → H.orb l ≠ H.orb [])
    (hP : ∀ l, l ≠ [] → H.hop l ≠ H.hop []) {tree : DistMatrix} (ht : IsDistMatrix tree) :
    ∃ s, mos2Soc H HS tree = .ok s ∧ WF (syncArray H s) ∧ ArraysFresh (syncArray H s) ∧ (syncArray H s).numOrb = 22 ∧
      (∀ k conv, conv = 1 ∨ conv = 2 → ∃ ham, setHamDense (syncArray H s) k conv = .ok ham) ∧
      (∀ x, x < 22 → ∃ o, (syncArray H s).orbs[x]? = some o ∧ o.energy = Mos2.energy (x % 11)) ∧
      (∀ R (x y : ℕ), x < 22 → y < 22 → (syncArray H s).hops.get R x y = hopping R x y) ∧
      ∀ x, x < 22 → ∃ o, (syncArray H s).orbs[x]? = some o ∧ o.position = Mos2.position (atom (x % 11)) := by
  obtain ⟨s, a1, a2, a3, a4, a5, a6, a7, a8, a9, a10⟩ := mo_build H HS hO ht
  have hne : s.orbs ≠ [] := by
    intro h
    rw [numOrb, h] at a5
    simp at a5
  obtain ⟨b1, b2, b3, b4, b5, b6, b7⟩ := build_ham a6 hO hP a7 a8 hne (1, 0, 0) (0 : ℕ) (0 : ℕ) (by
    rw [a10 _ _ _ (by omega) (by omega)]
    unfold hopping
    rw [if_pos ⟨rfl, rfl, by decide⟩]
    simp)
  refine ⟨s, a1, b1, b2, by rw [numOrb, b3]; exact a5, b6, ?_, ?_, ?_⟩
  · intro x hx
    rw [b3]
    exact ⟨_, a9 x hx, rfl⟩
  · intro R x y hx hy
    rw [b4]
    exact a10 R x y hx hy
  · intro x hx
    rw [b3]
    exact ⟨_, a9 x hx, rfl⟩

/-- **C112 (time reversal).** The bands of `make_mos2_soc` at `k` and `-k` are the same, for both conventions and every Bloch vector. -/
theorem C112_time_reversal (H : HashFns ℝ ℂ (List String)) (HS : SCHash ℝ ℂ (List String)) (hO : ∀ l, l ≠ [] → H.orb l ≠ H.orb [])
    (hP : ∀ l, l ≠ [] → H.hop l ≠ H.hop []) {tree : DistMatrix} (ht : IsDistMatrix tree) (k : Vec3 ℝ) (conv : ℤ) (hcv : conv = 1 ∨ conv = 2) :
    ∃ s ham ham', mos2Soc H HS tree = .ok s ∧ setHamDense (syncArray H s) k conv = .ok ham ∧
      setHamDense (syncArray H s) (-k) conv = .ok ham' ∧ (toMatrix 22 ham').charpoly = (toMatrix 22 ham).charpoly := by
  obtain ⟨s, a1, b1, b2, b3, b4, b5, b6, -⟩ := mos_synced H HS hO hP ht
  obtain ⟨ham, hh⟩ := b4 k conv hcv
  obtain ⟨ham', hh'⟩ := b4 (-k) conv hcv
  refine ⟨s, ham, ham', a1, hh, hh', ?_⟩
  obtain ⟨h1, -, h3⟩ := mos_anti b3 b5 b6
  have hk : -kMul 1 k = -k := by
    congr 1
    funext x
    fin_cases x <;> simp [kMul, Fin.sum_univ_three, Matrix.one_apply]
  have := C101_antiunitary b1 b2 h1 (Matrix.isUnit_det_of_left_inverse h3) k conv ham' ham (by rw [hk]; exact hh') hh
  rw [b3] at this
  exact this.symm

/-- **C112 (Kramers pairs).** At every Bloch vector that is half a reciprocal lattice vector, every state of `make_mos2_soc` has an
orthogonal partner of the same norm and energy. -/
theorem C112_kramers (H : HashFns ℝ ℂ (List String)) (HS : SCHash ℝ ℂ (List String)) (hO : ∀ l, l ≠ [] → H.orb l ≠ H.orb [])
    (hP : ∀ l, l ≠ [] → H.hop l ≠ H.hop []) {tree : DistMatrix} (ht : IsDistMatrix tree) (k : Vec3 ℝ) (hk : ∀ x, ∃ m : ℤ, 2 * k x = m)
    (conv : ℤ) (hcv : conv = 1 ∨ conv = 2) :
    ∃ s ham, mos2Soc H HS tree = .ok s ∧ setHamDense (syncArray H s) k conv = .ok ham ∧
      ∀ (μ : ℝ) (v : Fin 22 → ℂ), (toMatrix 22 ham).mulVec v = (μ : ℂ) • v →
        ∃ w, (toMatrix 22 ham).mulVec w = (μ : ℂ) • w ∧ star v ⬝ᵥ w = 0 ∧ star w ⬝ᵥ w = star v ⬝ᵥ v := by
  obtain ⟨s, a1, b1, b2, b3, b4, b5, b6, -⟩ := mos_synced H HS hO hP ht
  obtain ⟨ham, hh⟩ := b4 k conv hcv
  refine ⟨s, ham, a1, hh, ?_⟩
  obtain ⟨h1, h2, h3⟩ := mos_anti b3 b5 b6
  have := C101_degenerate b1 b2 h1 h2 h3 (by intro a i _; simp [cellMul]) k (by
    intro x
    obtain ⟨m, hm⟩ := hk x
    refine ⟨m, ?_⟩
    rw [← hm]
    fin_cases x <;> simp [kMul, Fin.sum_univ_three, Matrix.one_apply] <;> ring) conv ham hh
  rw [b3] at this
  exact this

/-- The mirror in the plane of Mo. -/
noncomputable def mirQ : Mat3 ℝ := !![1, 0, 0; 0, 1, 0; 0, 0, -1]

/-- The opposite orbital. -/
def negTens : Tens → Tens
  | .s c => .s (-c)
  | .p a => .p (-a)
  | .d A => .d (-A)

theorem twoCentre_neg (v : Par) (n : Vec3 ℝ) (a b : Tens) :
    twoCentre v n (negTens a) b = -twoCentre v n a b ∧ twoCentre v n a (negTens b) = -twoCentre v n a b := by
  constructor <;> cases a <;> cases b <;> simp [twoCentre, negTens, quad, perp, Matrix.neg_mulVec] <;> ring

theorem angMom_neg (k : Fin 3) (a b : Tens) :
    Soc.angMom k (negTens a) b = -Soc.angMom k a b ∧ Soc.angMom k a (negTens b) = -Soc.angMom k a b := by
  constructor <;> cases a <;> cases b <;> simp [Soc.angMom, Soc.turn, negTens, Tens.inner, Matrix.mulVec_neg, mul_add, mul_sub]
  all_goals ring

theorem rot_mir_p (x y z : ℝ) : (Tens.p ![x, y, z]).rot mirQ = .p ![x, y, -z] := by
  simp only [Tens.rot, Tens.p.injEq]
  funext i
  fin_cases i <;> simp [mirQ, Matrix.mulVec, dotProduct, Fin.sum_univ_three]

theorem rot_mir_d (a b c d e f g h i : ℝ) : (Tens.d !![a, b, c; d, e, f; g, h, i]).rot mirQ = .d !![a, b, -c; d, e, -f; -g, -h, i] := by
  simp only [Tens.rot, Tens.d.injEq]
  ext x y
  simp only [Matrix.mul_apply, Fin.sum_univ_three, Matrix.transpose_apply]
  fin_cases x <;> fin_cases y <;> simp [mirQ]

/-- Orbitals odd under the mirror. -/
def mirOdd (i : ℕ) : Bool := i = 1 ∨ i = 2 ∨ i = 7 ∨ i = 10

theorem kind_mir (i : ℕ) (hi : i < 11) : (tensD (kind i)).rot mirQ = if mirOdd i then negTens (tensD (kind i)) else tensD (kind i) := by
  interval_cases i <;> simp only [kind, tensD, tens, Option.getD_some, rot_mir_p, rot_mir_d, mirOdd, negTens] <;> simp

theorem angMom_mir (k : Fin 3) (a b : Tens) : Soc.angMom k (a.rot mirQ) (b.rot mirQ) = (if k = 2 then 1 else -1) * Soc.angMom k a b := by
  have e3 : ∀ v : Vec3 ℝ, v = ![v 0, v 1, v 2] := fun v => by funext i; fin_cases i <;> rfl
  cases a with
  | s u => cases b <;> simp only [Tens.rot, Soc.angMom_ss, Soc.angMom_sp, Soc.angMom_sd, mul_zero]
  | p u =>
    cases b with
    | s w => simp only [Tens.rot, Soc.angMom_ps, mul_zero]
    | p w =>
      rw [e3 u, e3 w, rot_mir_p, rot_mir_p]
      obtain ⟨h0, h1, h2⟩ := Soc.angMom_p ![u 0, u 1, u 2] ![w 0, w 1, w 2]
      obtain ⟨g0, g1, g2⟩ := Soc.angMom_p ![u 0, u 1, -u 2] ![w 0, w 1, -w 2]
      fin_cases k
      · simp only [Fin.zero_eta, h0, g0]; simp; ring
      · simp only [Fin.mk_one, h1, g1]; simp; ring
      · simp only [Fin.reduceFinMk, h2, g2]; simp
    | d w => simp only [Tens.rot, Soc.angMom_pd, mul_zero]
  | d u =>
    cases b with
    | s w => simp only [Tens.rot, Soc.angMom_ds, mul_zero]
    | p w => simp only [Tens.rot, Soc.angMom_dp, mul_zero]
    | d w =>
      rw [Matrix.eta_fin_three u, Matrix.eta_fin_three w, rot_mir_d, rot_mir_d]
      fin_cases k
      · simp only [Fin.zero_eta, (Soc.angMom_d _ _ _ _ _ _ _ _ _ _ _ _ _ _ _ _ _ _).1]; simp; ring
      · simp only [Fin.mk_one, (Soc.angMom_d _ _ _ _ _ _ _ _ _ _ _ _ _ _ _ _ _ _).2.1]; simp; ring
      · simp only [Fin.reduceFinMk, (Soc.angMom_d _ _ _ _ _ _ _ _ _ _ _ _ _ _ _ _ _ _).2.2]; simp

/-- The image of an orbital under the mirror: the two S atoms are exchanged. -/
def mirOrb (x : ℕ) : ℕ := x / 11 * 11 + if x % 11 < 5 then x % 11 else if x % 11 < 8 then x % 11 + 3 else x % 11 - 3

/-- The sign of an orbital under the mirror, times that of the spin (the mirror acts on the spin like a rotation by 180 degrees). -/
noncomputable def mirSign (x : ℕ) : ℂ := (if mirOdd (x % 11) then -1 else 1) * if x < 11 then 1 else -1

/-- The mirror. -/
noncomputable def mirMat (n : ℕ) : Matrix (Fin n) (Fin n) ℂ := Matrix.of fun a i => if (a : ℕ) = mirOrb i then mirSign i else 0

theorem mirOrb_spec : ∀ x : ℕ, x < 22 → mirOrb x < 22 ∧ mirOrb (mirOrb x) = x ∧ (mirOrb x < 11 ↔ x < 11) := by
  intro x hx
  unfold mirOrb
  split_ifs <;> omega

theorem mirOrb_atom : ∀ x : ℕ, x < 22 → Mos2.kind (mirOrb x % 11) = Mos2.kind (x % 11) ∧ mirOdd (mirOrb x % 11) = mirOdd (x % 11) ∧
    atom (mirOrb x % 11) = (if atom (x % 11) = 0 then 0 else 3 - atom (x % 11)) := by
  intro x hx
  interval_cases x <;> decide

theorem mir_position (x : ℕ) (hx : x < 22) : Mos2.position (atom (mirOrb x % 11)) 0 = Mos2.position (atom (x % 11)) 0 ∧
    Mos2.position (atom (mirOrb x % 11)) 1 = Mos2.position (atom (x % 11)) 1 ∧
    Mos2.position (atom (mirOrb x % 11)) 2 = 1 - Mos2.position (atom (x % 11)) 2 := by
  rw [(mirOrb_atom x hx).2.2]
  have : ∀ i : ℕ, i < 11 → atom i = 0 ∨ atom i = 1 ∨ atom i = 2 := by decide
  rcases this (x % 11) (Nat.mod_lt _ (by norm_num)) with h | h | h <;> rw [h] <;> simp [Mos2.position] <;> norm_num

theorem displacement_mir (R : Cell) (x y : ℕ) (hx : x < 22) (hy : y < 22) :
    displacement (R.1, R.2.1, -R.2.2) (mirOrb x) (mirOrb y) = mirQ.mulVec (displacement R x y) := by
  obtain ⟨p0, p1, p2⟩ := mir_position x hx
  obtain ⟨q0, q1, q2⟩ := mir_position y hy
  funext k
  fin_cases k <;> simp [displacement, Fin.sum_univ_three, lattice, p0, p1, p2, q0, q1, q2, mirQ, Matrix.mulVec, dotProduct] <;> ring

theorem twoCentreHop_mir (R : Cell) (x y : ℕ) (hx : x < 22) (hy : y < 22) :
    twoCentreHop (R.1, R.2.1, -R.2.2) (mirOrb x) (mirOrb y) * (if mirOdd (y % 11) then -1 else 1) =
      (if mirOdd (x % 11) then -1 else 1) * twoCentreHop R x y := by
  have hx' : x % 11 < 11 := Nat.mod_lt _ (by norm_num)
  have hy' : y % 11 < 11 := Nat.mod_lt _ (by norm_num)
  have hQ : mirQ * mirQ.transpose = 1 := by
    ext a b
    fin_cases a <;> fin_cases b <;> simp [mirQ, Matrix.mul_apply, Fin.sum_univ_three]
  have hn : norm3 (mirQ.mulVec (displacement R x y)) = norm3 (displacement R x y) := by
    unfold norm3
    congr 1
    simp [mirQ, Matrix.mulVec, dotProduct, Fin.sum_univ_three]
  have hv : (fun k => mirQ.mulVec (displacement R x y) k / norm3 (displacement R x y)) =
      mirQ.mulVec fun k => displacement R x y k / norm3 (displacement R x y) := by
    funext k
    fin_cases k <;> simp [mirQ, Matrix.mulVec, dotProduct, Fin.sum_univ_three]
    ring
  have h := twoCentre_rot par mirQ hQ (fun k => displacement R x y k / norm3 (displacement R x y)) (tensD (kind (x % 11))) (tensD (kind (y % 11)))
  rw [kind_mir _ hx', kind_mir _ hy'] at h
  unfold twoCentreHop
  rw [displacement_mir R x y hx hy, (mirOrb_atom x hx).1, (mirOrb_atom y hy).1, hn, hv, ← h]
  by_cases c1 : mirOdd (x % 11) <;> by_cases c2 : mirOdd (y % 11) <;> simp [c1, c2, (twoCentre_neg _ _ _ _).1, (twoCentre_neg _ _ _ _).2]

theorem spinOrbit_mir (a b : Tens) (σ τ : Fin 2) : Soc.spinOrbit (a.rot mirQ) σ (b.rot mirQ) τ =
    (if σ = 0 then 1 else -1) * (if τ = 0 then 1 else -1) * Soc.spinOrbit a σ b τ := by
  simp only [Soc.spinOrbit, Fin.sum_univ_three, angMom_mir]
  fin_cases σ <;> fin_cases τ <;> simp [Soc.pauli] <;> ring

theorem spinOrbit_neg (a b : Tens) (σ τ : Fin 2) : Soc.spinOrbit (negTens a) σ b τ = -Soc.spinOrbit a σ b τ ∧
    Soc.spinOrbit a σ (negTens b) τ = -Soc.spinOrbit a σ b τ := by
  constructor <;> simp only [Soc.spinOrbit, Fin.sum_univ_three, (angMom_neg _ _ _).1, (angMom_neg _ _ _).2] <;> ring

theorem ls_mir (x y : ℕ) (hx : x < 22) (hy : y < 22) : ls (mirOrb x) (mirOrb y) * mirSign y = mirSign x * ls x y := by
  have hx' : x % 11 < 11 := Nat.mod_lt _ (by norm_num)
  have hy' : y % 11 < 11 := Nat.mod_lt _ (by norm_num)
  have sp : ∀ x : ℕ, x < 22 → Mos2.spin (mirOrb x) = Mos2.spin x := by
    intro x hx
    unfold Mos2.spin
    simp only [(mirOrb_spec x hx).2.2]
  have s0 : ∀ x : ℕ, x < 11 ↔ Mos2.spin x = 0 := by
    intro x
    unfold Mos2.spin
    split_ifs with h <;> simp [h]
  have h := spinOrbit_mir (tensD (kind (x % 11))) (tensD (kind (y % 11))) (Mos2.spin x) (Mos2.spin y)
  rw [kind_mir _ hx', kind_mir _ hy'] at h
  simp only [ls, sp x hx, sp y hy, (mirOrb_atom x hx).1, (mirOrb_atom y hy).1, mirSign, s0]
  have hs : ∀ σ : Fin 2, (if σ = 0 then (1 : ℂ) else -1) * (if σ = 0 then 1 else -1) = 1 := by
    intro σ
    split_ifs <;> norm_num
  have hs1 := hs (Mos2.spin x)
  have hs2 := hs (Mos2.spin y)
  generalize (if Mos2.spin x = 0 then (1 : ℂ) else -1) = u at *
  generalize (if Mos2.spin y = 0 then (1 : ℂ) else -1) = w at *
  by_cases c1 : mirOdd (x % 11) <;> by_cases c2 : mirOdd (y % 11) <;>
    simp only [c1, c2, if_true, if_false, Bool.false_eq_true, (spinOrbit_neg _ _ _ _).1, (spinOrbit_neg _ _ _ _).2, neg_neg] at h ⊢
  · linear_combination (-w) * h - u * Soc.spinOrbit (tensD (kind (x % 11))) (Mos2.spin x) (tensD (kind (y % 11))) (Mos2.spin y) * hs2
  · linear_combination (-w) * h - u * Soc.spinOrbit (tensD (kind (x % 11))) (Mos2.spin x) (tensD (kind (y % 11))) (Mos2.spin y) * hs2
  · linear_combination w * h + u * Soc.spinOrbit (tensD (kind (x % 11))) (Mos2.spin x) (tensD (kind (y % 11))) (Mos2.spin y) * hs2
  · linear_combination w * h + u * Soc.spinOrbit (tensD (kind (x % 11))) (Mos2.spin x) (tensD (kind (y % 11))) (Mos2.spin y) * hs2

theorem hopping_mir (R : Cell) (x y : ℕ) (hx : x < 22) (hy : y < 22) :
    (hopping (R.1, R.2.1, -R.2.2) (mirOrb x) (mirOrb y)).getD 0 * mirSign y = mirSign x * (hopping R x y).getD 0 := by
  classical
  have sp : ∀ x : ℕ, x < 22 → Mos2.spin (mirOrb x) = Mos2.spin x := by
    intro x hx
    unfold Mos2.spin
    simp only [(mirOrb_spec x hx).2.2]
  have s0 : ∀ x : ℕ, x < 11 ↔ Mos2.spin x = 0 := by
    intro x
    unfold Mos2.spin
    split_ifs with h <;> simp [h]
  have hne : ∀ x, mirSign x ≠ 0 := by
    intro x
    unfold mirSign
    split_ifs <;> norm_num
  have h1 := twoCentreHop_mir R x y hx hy
  have h3 := ls_mir x y hx hy
  have h4 : ls (mirOrb x) (mirOrb y) = 0 ↔ ls x y = 0 := by
    constructor
    · intro h
      rw [h, zero_mul] at h3
      exact (mul_eq_zero.1 h3.symm).resolve_left (hne x)
    · intro h
      rw [h, mul_zero] at h3
      exact (mul_eq_zero.1 h3).resolve_right (hne y)
  have hat : ∀ i : ℕ, i < 11 → atom i = 0 ∨ atom i = 1 ∨ atom i = 2 := by decide
  have hb : bonds (atom (mirOrb x % 11)) (atom (mirOrb y % 11)) = bonds (atom (x % 11)) (atom (y % 11)) ∧
      (atom (mirOrb x % 11) = atom (mirOrb y % 11) ↔ atom (x % 11) = atom (y % 11)) ∧
      lambda (atom (mirOrb x % 11)) = lambda (atom (x % 11)) := by
    rw [(mirOrb_atom x hx).2.2, (mirOrb_atom y hy).2.2]
    rcases hat (x % 11) (Nat.mod_lt _ (by norm_num)) with h | h | h <;> rcases hat (y % 11) (Nat.mod_lt _ (by norm_num)) with h' | h' | h' <;>
      rw [h, h'] <;> simp [bonds, lambda]
  have hz : ((R.1, R.2.1, -R.2.2) : Cell) = 0 ↔ R = 0 := by
    constructor
    · intro h
      simp only [Prod.ext_iff, Prod.fst_zero, Prod.snd_zero, neg_eq_zero] at h ⊢
      exact h
    · rintro rfl
      rfl
  simp only [hopping, sp x hx, sp y hy, h4, hb.1, hb.2.1, hb.2.2, hz, neg_eq_zero, ne_eq]
  by_cases c1 : Mos2.spin x = Mos2.spin y ∧ R.2.2 = 0 ∧ (R.1, R.2.1) ∈ bonds (atom (x % 11)) (atom (y % 11))
  · rw [if_pos c1, if_pos c1]
    simp only [Option.getD_some, mirSign, s0, c1.1]
    linear_combination (if Mos2.spin y = 0 then (1 : ℂ) else -1) * h1
  · rw [if_neg c1, if_neg c1]
    by_cases c2 : R = 0 ∧ atom (x % 11) = atom (y % 11) ∧ ¬ ls x y = 0
    · rw [if_pos c2, if_pos c2]
      simp only [Option.getD_some]
      linear_combination (lambda (atom (x % 11)) : ℂ) * h3
    · rw [if_neg c2, if_neg c2]
      simp

theorem mos_mirror {s : PrimCell ℝ ℂ (List String)} (hn : s.numOrb = 22)
    (ho : ∀ x, x < 22 → ∃ o, s.orbs[x]? = some o ∧ o.energy = Mos2.energy (x % 11))
    (hh : ∀ R (x y : ℕ), x < 22 → y < 22 → s.hops.get R x y = hopping R x y) :
    UnitarySym s !![1, 0, 0; 0, 1, 0; 0, 0, -1] (mirMat s.numOrb) (fun _ => 0) := by
  have hf := mirOrb_spec
  let π : Equiv.Perm (Fin s.numOrb) :=
    { toFun := fun i => ⟨mirOrb i, by have := (hf i (by have := i.2; omega)).1; omega⟩
      invFun := fun i => ⟨mirOrb i, by have := (hf i (by have := i.2; omega)).1; omega⟩
      left_inv := fun i => Fin.ext (hf i (by have := i.2; omega)).2.1
      right_inv := fun i => Fin.ext (hf i (by have := i.2; omega)).2.1 }
  have hU : mirMat s.numOrb = Matrix.of fun a i => if a = π i then mirSign i else 0 := by
    ext a i
    simp only [mirMat, Matrix.of_apply, π, Equiv.coe_fn_mk, Fin.ext_iff]
  rw [hU]
  refine unitarySym_of_perm (by simp [Matrix.det_fin_three]) π (fun i => mirSign i) ?_ _ fun R i j => ?_
  · intro i
    simp only [mirSign]
    split_ifs <;> simp
  have hi : (i : ℕ) < 22 := by have := i.2; omega
  have hj : (j : ℕ) < 22 := by have := j.2; omega
  have hcell : cellMul !![1, 0, 0; 0, 1, 0; 0, 0, -1] R + 0 - 0 = (R.1, R.2.1, -R.2.2) := by
    refine Prod.ext ?_ (Prod.ext ?_ ?_) <;> simp [cellMul]
  change fullAmp s (cellMul !![1, 0, 0; 0, 1, 0; 0, 0, -1] R + 0 - 0) (mirOrb i) (mirOrb j) * mirSign j = mirSign i * fullAmp s R i j
  rw [hcell]
  unfold fullAmp amp
  rw [hh _ _ _ (hf i hi).1 (hf j hj).1, hh R _ _ hi hj, add_mul, mul_add, hopping_mir R i j hi hj]
  congr 1
  obtain ⟨o1, e1, e2⟩ := ho i hi
  obtain ⟨o2, e3, e4⟩ := ho (mirOrb i) (hf i hi).1
  have hm : Mos2.energy (mirOrb i % 11) = Mos2.energy (i % 11) := by
    generalize (i : ℕ) = x at hi
    interval_cases x <;> simp [mirOrb, Mos2.energy]
  have hij : mirOrb i = mirOrb j ↔ (i : ℕ) = j := by
    constructor
    · intro h
      rw [← (hf i hi).2.1, h, (hf j hj).2.1]
    · intro h; rw [h]
  have hz : ((R.1, R.2.1, -R.2.2) : Cell) = 0 ↔ R = 0 := by
    constructor
    · intro h
      simp only [Prod.ext_iff, Prod.fst_zero, Prod.snd_zero, neg_eq_zero] at h ⊢
      exact h
    · rintro rfl
      rfl
  rw [e1, e3]
  simp only [Option.elim_some, e2, e4, hm, hij, hz]
  by_cases hc : R = 0 ∧ (i : ℕ) = j
  · rw [if_pos hc, hc.2]
    simp [mul_comm]
  · rw [if_neg hc]
    simp

/-- **C112 (mirror).** The mirror in the plane of Mo is exact: it exchanges the two S atoms, its square is 1, and at every Bloch vector of the
layer the Hamiltonian of `make_mos2_soc` commutes with it, for both conventions.  The states can be chosen even or odd. -/
theorem C112_mirror (H : HashFns ℝ ℂ (List String)) (HS : SCHash ℝ ℂ (List String)) (hO : ∀ l, l ≠ [] → H.orb l ≠ H.orb [])
    (hP : ∀ l, l ≠ [] → H.hop l ≠ H.hop []) {tree : DistMatrix} (ht : IsDistMatrix tree) (k : Vec3 ℝ) (hk : k 2 = 0) (conv : ℤ)
    (hcv : conv = 1 ∨ conv = 2) :
    ∃ s ham, mos2Soc H HS tree = .ok s ∧ setHamDense (syncArray H s) k conv = .ok ham ∧ mirMat 22 * mirMat 22 = 1 ∧
      toMatrix 22 ham * mirMat 22 = mirMat 22 * toMatrix 22 ham := by
  obtain ⟨s, a1, b1, b2, b3, b4, b5, b6, b7⟩ := mos_synced H HS hO hP ht
  obtain ⟨ham, hh⟩ := b4 k conv hcv
  refine ⟨s, ham, a1, hh, ?_, ?_⟩
  · ext a j
    rw [Matrix.mul_apply, Matrix.one_apply]
    have hj : (j : ℕ) < 22 := j.2
    have hs : mirSign (mirOrb j) * mirSign j = 1 := by
      unfold mirSign
      rw [(mirOrb_atom j hj).2.1]
      simp only [(mirOrb_spec j hj).2.2]
      split_ifs <;> norm_num
    rw [Finset.sum_eq_single (⟨mirOrb j, (mirOrb_spec j hj).1⟩ : Fin 22)]
    · simp only [mirMat, Matrix.of_apply, if_true, (mirOrb_spec j hj).2.1, Fin.ext_iff, ite_mul, zero_mul, hs]
    · intro b _ hb
      have : ¬ (b : ℕ) = mirOrb j := fun h => hb (Fin.ext h)
      simp [mirMat, this]
    · simp
  · have hkm : kMul !![1, 0, 0; 0, 1, 0; 0, 0, -1] k = k := by
      funext x
      fin_cases x <;> simp [kMul, Fin.sum_univ_three, hk]
    have h := C101_intertwines b1 b2 (mos_mirror b3 b5 b6) k conv ham ham (by rw [hkm]; exact hh) hh
    have hV : blochSym (syncArray H s) !![1, 0, 0; 0, 1, 0; 0, 0, -1] (mirMat (syncArray H s).numOrb) (fun _ => 0) conv k =
        mirMat (syncArray H s).numOrb := by
      ext a i
      simp only [blochSym, mirMat, Matrix.of_apply, hkm]
      by_cases ha : (a : ℕ) = mirOrb i
      · have hi : (i : ℕ) < 22 := by have := i.2; omega
        obtain ⟨o1, e1, e2⟩ := b7 i hi
        obtain ⟨o2, e3, e4⟩ := b7 (mirOrb i) (mirOrb_spec i hi).1
        have hp : orbPhase (syncArray H s) conv k (mirOrb i) = orbPhase (syncArray H s) conv k i := by
          unfold orbPhase
          rw [e1, e3]
          congr 2
          simp only [Option.elim_some, e2, e4, Fin.sum_univ_three, hk, zero_mul, (mir_position i hi).1, (mir_position i hi).2.1]
        have h0 : cellPhase k (-0) = 1 := by simp [cellPhase, cellAt, Fin.sum_univ_three, eiPhase_zero]
        rw [if_pos ha, ha, hp, h0]
        have h1 : star (orbPhase (syncArray H s) conv k i) * orbPhase (syncArray H s) conv k i = 1 := eiPhase_star_mul _
        linear_combination mirSign i * h1
      · rw [if_neg ha]; simp
    rw [hV, b3] at h
    exact h

/-- **C112 (threefold rotation).** The lattice of `make_mos2_soc` is typed with rounded digits and is not exactly hexagonal: the two
lattice vectors, which a threefold rotation would map to each other's negative sum, have different lengths, so the hopping integrals
of equivalent bonds differ. -/
theorem C112_not_hexagonal : norm3 (displacement (1, 0, 0) 0 0) ≠ norm3 (displacement (0, 1, 0) 0 0) := by
  have e1 : norm3 (displacement (1, 0, 0) 0 0) = Real.sqrt (0.316 ^ 2) := by
    unfold norm3
    congr 1
    simp [displacement, lattice, Fin.sum_univ_three]
  have e2 : norm3 (displacement (0, 1, 0) 0 0) = Real.sqrt (0.1579999 ^ 2 + 0.2736640276 ^ 2) := by
    unfold norm3
    congr 1
    simp [displacement, lattice, Fin.sum_univ_three]
  rw [e1, e2]
  intro h
  rw [Real.sqrt_inj (by positivity) (by positivity)] at h
  norm_num at h

/-- The hypotheses of the theorems of this file can be met. -/
example : ∃ (H : HashFns ℝ ℂ (List String)) (tree : DistMatrix) (k : Vec3 ℝ), (∀ l, l ≠ [] → H.orb l ≠ H.orb []) ∧
    (∀ l, l ≠ [] → H.hop l ≠ H.hop []) ∧ IsDistMatrix tree ∧ (∀ x, ∃ m : ℤ, 2 * k x = m) ∧ k 2 = 0 := by
  obtain ⟨tree, ht⟩ := distMatrix_exists
  refine ⟨⟨fun l => l.length, fun l => l.length⟩, tree, ![1 / 2, 0, 0], ?_, ?_, ht, ?_, by simp⟩
  · intro l hl; simpa using hl
  · intro l hl; simpa using hl
  · intro x
    fin_cases x
    · exact ⟨1, by simp⟩
    · exact ⟨0, by simp⟩
    · exact ⟨0, by simp⟩

end Verif.Props

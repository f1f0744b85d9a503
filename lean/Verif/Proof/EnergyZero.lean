import Verif.Spec.EnergyZero
import Verif.Proof.BipartiteDiag
import Verif.Proof.Passive

/-! # Sums over states do not depend on the choice of the states -/

namespace Verif

open Matrix Verif.Props

variable {N : ℕ}

theorem eigenpairs_shift {c : ℝ} {m m' : IMat} {q : (ℕ → ℝ) × (ℕ → ℕ → ℂ)} (hm : ∀ i < N, ∀ j < N, m' i j = m i j + if i = j then (c : ℂ) else 0)
    (h : Eigenpairs N N m' q) : Eigenpairs N N m (fun j => q.1 j - c, q.2) := by
  refine ⟨fun j hj o ho => ?_, h.orthonormal⟩
  have := h.eigen j hj o ho
  have e : ∑ i ∈ Finset.range N, m' o i * q.2 i j = (∑ i ∈ Finset.range N, m o i * q.2 i j) + c * q.2 o j := by
    rw [Finset.sum_congr rfl fun (i : ℕ) hi => by rw [hm o ho i (Finset.mem_range.1 hi)]]
    simp only [add_mul, Finset.sum_add_distrib]
    congr 1
    rw [Finset.sum_eq_single o]
    · simp
    · intro b _ hb
      rw [if_neg (Ne.symm hb), zero_mul]
    · intro h0
      exact absurd (Finset.mem_range.2 ho) h0
  rw [e] at this
  push_cast
  linear_combination this

/-- Functions of the Hamiltonian: they do not depend on the eigenvectors. -/
theorem function_unique {m : IMat} {q p : (ℕ → ℝ) × (ℕ → ℕ → ℂ)} (hq : Eigenpairs N N m q) (hp : Eigenpairs N N m p) (φ : ℝ → ℂ) (o o' : Fin N) :
    ∑ j ∈ Finset.range N, φ (q.1 j) * q.2 o j * star (q.2 o' j) = ∑ j ∈ Finset.range N, φ (p.1 j) * p.2 o j * star (p.2 o' j) := by
  obtain ⟨q1, q2⟩ := eigMat_unitary hq
  obtain ⟨p1, p2⟩ := eigMat_unitary hp
  have q3 := eigMat_eigen hq
  have p3 := eigMat_eigen hp
  have hent : ∀ (u : (ℕ → ℝ) × (ℕ → ℕ → ℂ)), (eigMat N u * (Matrix.diagonal fun j : Fin N => φ (u.1 j)) * (eigMat N u)ᴴ) o o' =
      ∑ j ∈ Finset.range N, φ (u.1 j) * u.2 o j * star (u.2 o' j) := by
    intro u
    rw [Matrix.mul_apply, Finset.sum_range]
    refine Finset.sum_congr rfl fun j _ => ?_
    rw [Matrix.mul_diagonal, Matrix.conjTranspose_apply]
    simp only [eigMat, Matrix.of_apply]
    ring
  rw [← hent, ← hent]
  refine congrFun (congrFun ?_ o) o'
  set V := eigMat N q
  set V' := eigMat N p
  set M := toMatrix N m
  set W := Vᴴ * V' with hW
  have hEV : (Matrix.diagonal fun j : Fin N => (q.1 j : ℂ)) * W = W * Matrix.diagonal fun j : Fin N => (p.1 j : ℂ) := by
    calc (Matrix.diagonal fun j : Fin N => (q.1 j : ℂ)) * W = Vᴴ * (V * Matrix.diagonal fun j : Fin N => (q.1 j : ℂ)) * W := by
          rw [← Matrix.mul_assoc Vᴴ V, q1, Matrix.one_mul]
      _ = Vᴴ * M * (V * Vᴴ) * V' := by rw [← q3, hW]; simp only [Matrix.mul_assoc]
      _ = Vᴴ * (M * V') := by rw [q2, Matrix.mul_one, Matrix.mul_assoc]
      _ = W * Matrix.diagonal fun j : Fin N => (p.1 j : ℂ) := by rw [p3, hW, Matrix.mul_assoc]
  have hφ : (Matrix.diagonal fun j : Fin N => φ (q.1 j)) * W = W * Matrix.diagonal fun j : Fin N => φ (p.1 j) := by
    ext i j
    have := congrFun (congrFun hEV i) j
    rw [Matrix.diagonal_mul, Matrix.mul_diagonal] at this
    rw [Matrix.diagonal_mul, Matrix.mul_diagonal]
    by_cases h0 : W i j = 0
    · rw [h0]; simp
    · have h1 : ((q.1 i : ℂ) - p.1 j) * W i j = 0 := by linear_combination this
      have h2 := (mul_eq_zero.1 h1).resolve_right h0
      have h3 : q.1 i = p.1 j := by
        have : ((q.1 i : ℂ)) = p.1 j := by linear_combination h2
        exact_mod_cast this
      rw [h3, mul_comm]
  have e1 : Vᴴ = W * V'ᴴ := by rw [hW, Matrix.mul_assoc, p2, Matrix.mul_one]
  have e2 : V * W = V' := by rw [hW, ← Matrix.mul_assoc, q2, Matrix.one_mul]
  calc V * (Matrix.diagonal fun j : Fin N => φ (q.1 j)) * Vᴴ = V * ((Matrix.diagonal fun j : Fin N => φ (q.1 j)) * W) * V'ᴴ := by
        rw [e1]; simp only [Matrix.mul_assoc]
    _ = V * W * (Matrix.diagonal fun j : Fin N => φ (p.1 j)) * V'ᴴ := by rw [hφ]; simp only [Matrix.mul_assoc]
    _ = _ := by rw [e2]

/-- The same between two vectors. -/
theorem sandwich_unique {m : IMat} {q p : (ℕ → ℝ) × (ℕ → ℕ → ℂ)} (hq : Eigenpairs N N m q) (hp : Eigenpairs N N m p) (φ : ℝ → ℂ) (x y : ℕ → ℂ) :
    ∑ j ∈ Finset.range N, φ (q.1 j) * ((∑ o ∈ Finset.range N, x o * q.2 o j) * ∑ o ∈ Finset.range N, y o * star (q.2 o j)) =
      ∑ j ∈ Finset.range N, φ (p.1 j) * ((∑ o ∈ Finset.range N, x o * p.2 o j) * ∑ o ∈ Finset.range N, y o * star (p.2 o j)) := by
  have key : ∀ u : (ℕ → ℝ) × (ℕ → ℕ → ℂ),
      ∑ j ∈ Finset.range N, φ (u.1 j) * ((∑ o ∈ Finset.range N, x o * u.2 o j) * ∑ o ∈ Finset.range N, y o * star (u.2 o j)) =
        ∑ o ∈ Finset.range N, ∑ o' ∈ Finset.range N, x o * y o' * ∑ j ∈ Finset.range N, φ (u.1 j) * u.2 o j * star (u.2 o' j) := by
    intro u
    simp only [Finset.sum_mul_sum]
    simp only [Finset.mul_sum]
    rw [Finset.sum_comm]
    refine Finset.sum_congr rfl fun o _ => ?_
    rw [Finset.sum_comm]
    refine Finset.sum_congr rfl fun o' _ => Finset.sum_congr rfl fun j _ => ?_
    ring
  rw [key, key]
  refine Finset.sum_congr rfl fun o ho => Finset.sum_congr rfl fun o' ho' => ?_
  rw [function_unique hq hp φ ⟨o, Finset.mem_range.1 ho⟩ ⟨o', Finset.mem_range.1 ho'⟩]

/-- The density of any function of the energies on an orbital. -/
theorem level_unique {m : IMat} {q p : (ℕ → ℝ) × (ℕ → ℕ → ℂ)} (hq : Eigenpairs N N m q) (hp : Eigenpairs N N m p) (φ : ℝ → ℝ) (o : ℕ) (ho : o < N) :
    ∑ j ∈ Finset.range N, φ (q.1 j) * ‖q.2 o j‖ ^ 2 = ∑ j ∈ Finset.range N, φ (p.1 j) * ‖p.2 o j‖ ^ 2 := by
  have := function_unique hq hp (fun x => (φ x : ℂ)) ⟨o, ho⟩ ⟨o, ho⟩
  have e : ∀ u : (ℕ → ℝ) × (ℕ → ℕ → ℂ), ∑ j ∈ Finset.range N, (φ (u.1 j) : ℂ) * u.2 o j * star (u.2 o j) =
      ((∑ j ∈ Finset.range N, φ (u.1 j) * ‖u.2 o j‖ ^ 2 : ℝ) : ℂ) := by
    intro u
    push_cast
    refine Finset.sum_congr rfl fun j _ => ?_
    rw [mul_assoc, ← Complex.mul_conj']
    rfl
  rw [e, e] at this
  exact_mod_cast this

/-- The same with the weights of `calc_dos`. -/
theorem weight_unique {m : IMat} {q p : ℕ → (ℕ → ℝ) × (ℕ → ℕ → ℂ)} {k : ℕ} (hq : Eigenpairs N N m (q k)) (hp : Eigenpairs N N m (p k)) (φ : ℝ → ℝ)
    (orbs : Option (List ℕ)) (ho : ∀ os, orbs = some os → ∀ o ∈ os, o < N) :
    ∑ j ∈ Finset.range N, φ ((q k).1 j) * stateWeight q orbs k j = ∑ j ∈ Finset.range N, φ ((p k).1 j) * stateWeight p orbs k j := by
  cases orbs with
  | none =>
    simp only [stateWeight]
    have e : ∀ u : (ℕ → ℝ) × (ℕ → ℕ → ℂ), Eigenpairs N N m u → ∑ j ∈ Finset.range N, φ (u.1 j) * 1 =
        ∑ o ∈ Finset.range N, ∑ j ∈ Finset.range N, φ (u.1 j) * ‖u.2 o j‖ ^ 2 := by
      intro u hu
      rw [Finset.sum_comm]
      refine Finset.sum_congr rfl fun j hj => ?_
      rw [← Finset.mul_sum, column_norm hu j (Finset.mem_range.1 hj)]
    rw [e _ hq, e _ hp]
    exact Finset.sum_congr rfl fun o ho => level_unique hq hp φ o (Finset.mem_range.1 ho)
  | some os =>
    simp only [stateWeight]
    replace ho := ho os rfl
    induction os with
    | nil => simp
    | cons o os ih =>
      simp only [List.map_cons, List.sum_cons, mul_add, Finset.sum_add_distrib]
      rw [ih fun x hx => ho x (List.mem_cons_of_mem _ hx)]
      congr 1
      exact level_unique hq hp φ o (ho o List.mem_cons_self)

/-- The levels with multiplicities. -/
theorem levels_unique {m : IMat} {q p : (ℕ → ℝ) × (ℕ → ℕ → ℂ)} (hq : Eigenpairs N N m q) (hp : Eigenpairs N N m p) :
    ((List.range N).map q.1).Perm ((List.range N).map p.1) := by
  classical
  rw [List.perm_iff_count]
  intro E
  have := weight_unique (q := fun _ => q) (p := fun _ => p) (k := 0) hq hp (fun x => if x = E then 1 else 0) none (by simp)
  simp only [stateWeight, mul_one] at this
  have e : ∀ u : ℕ → ℝ, (((List.range N).map u).count E : ℝ) = ∑ j ∈ Finset.range N, if u j = E then 1 else 0 := by
    intro u
    rw [List.count_eq_countP, List.countP_map, List.countP_eq_length_filter, Finset.sum_boole]
    congr 1
  have : (((List.range N).map q.1).count E : ℝ) = ((List.range N).map p.1).count E := by rw [e, e]; exact this
  exact_mod_cast this

/-- Rows of `calc_states`. -/
theorem states_rows {D : Diag} {n : ℕ} {kpts : ℕ → Vec3 ℝ} {conv : ℤ} {s : (ℕ → ℕ → ℝ) × Arr3 ℂ} (h : statesSpec D n kpts conv = .ok s) (i : ℕ) (hi : i < n) :
    eigen D (kpts i) conv = .ok (s.1 i, fun o j => s.2 i j o) := by
  rw [statesSpec_eq, rowsOut_ok, firstErr_none] at h
  obtain ⟨h0, rfl⟩ := h
  obtain ⟨v, hv⟩ := h0 i (List.mem_range.2 hi)
  simp only [hi, if_true, eigVal, hv, Except.toOption, Option.getD_some]

end Verif

namespace Verif

variable {N : ℕ}

/-- `⟨u_l| A |q_j⟩`. -/
noncomputable def bracket (N : ℕ) (A : ℕ → ℕ → ℂ) (u q : (ℕ → ℝ) × (ℕ → ℕ → ℂ)) (l j : ℕ) : ℂ :=
  ∑ a ∈ Finset.range N, ∑ b ∈ Finset.range N, star (u.2 a l) * A a b * q.2 b j

/-- A sum over pairs of states. -/
noncomputable def pairSum (N : ℕ) (F : ℝ → ℝ → ℂ) (A B : ℕ → ℕ → ℂ) (q u : (ℕ → ℝ) × (ℕ → ℕ → ℂ)) : ℂ :=
  ∑ j ∈ Finset.range N, ∑ l ∈ Finset.range N, F (q.1 j) (u.1 l) * (bracket N A u q l j * bracket N B q u j l)

theorem bracket_right (A : ℕ → ℕ → ℂ) (u q : (ℕ → ℝ) × (ℕ → ℕ → ℂ)) (l j : ℕ) :
    bracket N A u q l j = ∑ b ∈ Finset.range N, (∑ a ∈ Finset.range N, star (u.2 a l) * A a b) * q.2 b j := by
  unfold bracket
  rw [Finset.sum_comm]
  simp only [Finset.sum_mul]

theorem bracket_left (A : ℕ → ℕ → ℂ) (u q : (ℕ → ℝ) × (ℕ → ℕ → ℂ)) (l j : ℕ) :
    bracket N A u q l j = ∑ a ∈ Finset.range N, (∑ b ∈ Finset.range N, A a b * q.2 b j) * star (u.2 a l) := by
  unfold bracket
  simp only [Finset.sum_mul]
  refine Finset.sum_congr rfl fun a _ => Finset.sum_congr rfl fun b _ => ?_
  ring

theorem pair_first (F : ℝ → ℝ → ℂ) (A B : ℕ → ℕ → ℂ) {m : IMat} {q q' : (ℕ → ℝ) × (ℕ → ℕ → ℂ)} (hq : Eigenpairs N N m q)
    (hq' : Eigenpairs N N m q') (u : (ℕ → ℝ) × (ℕ → ℕ → ℂ)) : pairSum N F A B q u = pairSum N F A B q' u := by
  unfold pairSum
  rw [Finset.sum_comm]
  conv_rhs => rw [Finset.sum_comm]
  refine Finset.sum_congr rfl fun l _ => ?_
  have := sandwich_unique hq hq' (fun e => F e (u.1 l)) (fun b => ∑ a ∈ Finset.range N, star (u.2 a l) * A a b)
    (fun a => ∑ b ∈ Finset.range N, B a b * u.2 b l)
  simp only [bracket_right A, bracket_left B]
  exact this

theorem pair_second (F : ℝ → ℝ → ℂ) (A B : ℕ → ℕ → ℂ) {m : IMat} {u u' : (ℕ → ℝ) × (ℕ → ℕ → ℂ)} (hu : Eigenpairs N N m u)
    (hu' : Eigenpairs N N m u') (q : (ℕ → ℝ) × (ℕ → ℕ → ℂ)) : pairSum N F A B q u = pairSum N F A B q u' := by
  unfold pairSum
  refine Finset.sum_congr rfl fun j _ => ?_
  have := sandwich_unique hu hu' (fun e => F (q.1 j) e) (fun b => ∑ a ∈ Finset.range N, star (q.2 a j) * B a b)
    (fun a => ∑ b ∈ Finset.range N, A a b * q.2 b j)
  simp only [bracket_right B, bracket_left A]
  refine Eq.trans (Finset.sum_congr rfl fun l _ => ?_) (this.trans (Finset.sum_congr rfl fun l _ => ?_)) <;> ring

/-- Sums over pairs of states do not depend on the choice of the states. -/
theorem pair_unique (F : ℝ → ℝ → ℂ) (A B : ℕ → ℕ → ℂ) {m m' : IMat} {q q' u u' : (ℕ → ℝ) × (ℕ → ℕ → ℂ)} (hq : Eigenpairs N N m q)
    (hq' : Eigenpairs N N m q') (hu : Eigenpairs N N m' u) (hu' : Eigenpairs N N m' u') : pairSum N F A B q u = pairSum N F A B q' u' :=
  (pair_first F A B hq hq' u).trans (pair_second F A B hu hu' q')

/-- A row of the tables as eigenvalues and eigenvectors. -/
def rowOf (s : (ℕ → ℕ → ℝ) × Arr3 ℂ) (k : ℕ) : (ℕ → ℝ) × (ℕ → ℕ → ℂ) := (s.1 k, fun o j => s.2 k j o)

/-- The row with energies smaller by `c`. -/
def rowDown (c : ℝ) (s : (ℕ → ℕ → ℝ) × Arr3 ℂ) (k : ℕ) : (ℕ → ℝ) × (ℕ → ℕ → ℂ) := (fun j => s.1 k j - c, fun o j => s.2 k j o)

/-- The factor of a pair of states in the Lindhard function. -/
noncomputable def lindFactor (L : Lind) (omega : ℝ) (e e' : ℝ) : ℂ :=
  ((1 / (1 + Real.exp (L.beta * (e - L.mu))) - 1 / (1 + Real.exp (L.beta * (e' - L.mu))) : ℝ) : ℂ) /
    (((e - e' + omega : ℝ) : ℂ) + Complex.I * (L.delta : ℂ))

/-- `exp(i q·r)` as an operator. -/
noncomputable def waveOp (q : Vec3 ℝ) (pos : ℕ → Vec3 ℝ) (a b : ℕ) : ℂ :=
  if a = b then Complex.exp (Complex.I * ((∑ x, q x * pos b x : ℝ) : ℂ)) else 0

theorem lindhard_pairs (L : Lind) (n : ℕ) (s s' : (ℕ → ℕ → ℝ) × Arr3 ℂ) (q : Vec3 ℝ) (omega : ℝ) :
    lindhardSum L n s s' q omega = ∑ k ∈ Finset.range n, pairSum L.D.nb (lindFactor L omega) (waveOp q L.orbPos)
      (fun a b => star (waveOp q L.orbPos a b)) (rowOf s k) (rowOf s' k) := by
  unfold lindhardSum pairSum
  refine Finset.sum_congr rfl fun k _ => Finset.sum_congr rfl fun j _ => Finset.sum_congr rfl fun l _ => ?_
  set P : ℂ := ∑ b ∈ Finset.range L.D.nb, star (s'.2 k l b) * s.2 k j b * Complex.exp (Complex.I * ((∑ x, q x * L.orbPos b x : ℝ) : ℂ)) with hP
  have h1 : bracket L.D.nb (waveOp q L.orbPos) (rowOf s' k) (rowOf s k) l j = P := by
    unfold bracket waveOp rowOf
    rw [hP]
    refine Finset.sum_congr rfl fun a ha => ?_
    rw [Finset.sum_eq_single a]
    · rw [if_pos rfl]; ring
    · intro b _ hb
      rw [if_neg (Ne.symm hb)]; ring
    · intro h0; exact absurd ha h0
  have h2 : bracket L.D.nb (fun a b => star (waveOp q L.orbPos a b)) (rowOf s k) (rowOf s' k) j l = star P := by
    unfold bracket waveOp rowOf
    rw [hP, star_sum]
    refine Finset.sum_congr rfl fun a ha => ?_
    rw [Finset.sum_eq_single a]
    · simp only [if_true, star_mul', star_star]; ring
    · intro b _ hb
      simp only [if_neg (Ne.symm hb), star_zero, mul_zero, zero_mul]
    · intro h0; exact absurd ha h0
  have h3 : ((overlapSq L.D.nb q L.orbPos (s'.2 k l) (s.2 k j) : ℝ) : ℂ) = P * star P := by
    unfold overlapSq
    rw [← hP]
    push_cast
    rw [← Complex.mul_conj']
    rfl
  rw [h1, h2, Complex.ofReal_mul, h3]
  unfold lindFactor rowOf
  ring

/-- The Lindhard function depends on the Hamiltonian only, and on energies relative to the chemical potential. -/
theorem lindhard_unique (L : Lind) {D' : Diag} {c : ℝ} (hnb : D'.nb = L.D.nb) {n : ℕ} {s s' t t' : (ℕ → ℕ → ℝ) × Arr3 ℂ}
    (h : ∀ k < n, ∃ m, Eigenpairs L.D.nb L.D.nb m (rowOf s k) ∧ Eigenpairs L.D.nb L.D.nb m (rowDown c t k))
    (h' : ∀ k < n, ∃ m, Eigenpairs L.D.nb L.D.nb m (rowOf s' k) ∧ Eigenpairs L.D.nb L.D.nb m (rowDown c t' k)) (q : Vec3 ℝ) (omega : ℝ) :
    lindhardSum (L.withSolver D' c) n t t' q omega = lindhardSum L n s s' q omega := by
  rw [lindhard_pairs, lindhard_pairs]
  refine Finset.sum_congr rfl fun k hk => ?_
  obtain ⟨m, hm1, hm2⟩ := h k (Finset.mem_range.1 hk)
  obtain ⟨m', hm1', hm2'⟩ := h' k (Finset.mem_range.1 hk)
  rw [pair_unique _ _ _ hm1 hm2 hm1' hm2']
  show pairSum D'.nb _ _ _ _ _ = _
  rw [hnb]
  unfold pairSum
  refine Finset.sum_congr rfl fun j _ => Finset.sum_congr rfl fun l _ => ?_
  have e : lindFactor (L.withSolver D' c) omega ((rowOf t k).1 j) ((rowOf t' k).1 l) =
      lindFactor L omega ((rowDown c t k).1 j) ((rowDown c t' k).1 l) := by
    unfold lindFactor rowOf rowDown Lind.withSolver
    simp only
    rw [show t.1 k j - (L.mu + c) = t.1 k j - c - L.mu by ring, show t'.1 k l - (L.mu + c) = t'.1 k l - c - L.mu by ring,
      show t.1 k j - c - (t'.1 k l - c) + omega = t.1 k j - t'.1 k l + omega by ring]
  rw [e]
  rfl

/-- The factor of a pair of states in the conductivity. -/
noncomputable def kuboFactor (L : Lind) (omega : ℝ) (e e' : ℝ) : ℂ :=
  open Classical in if (1e-7 : ℝ) ≤ |e - e'| then
    (((1 / (1 + Real.exp (L.beta * (e - L.mu))) - 1 / (1 + Real.exp (L.beta * (e' - L.mu)))) / (e - e') : ℝ) : ℂ) /
      (((e - e' - omega : ℝ) : ℂ) - Complex.I * (L.delta : ℂ))
  else 0

theorem kubo_pairs (L : Lind) (pos : ℤ → Vec3 ℝ) (eng : List ℝ) (hops : List (Cell × Pair × ℂ)) (comp : Fin 3 × Fin 3)
    (s : (ℕ → ℕ → ℝ) × Arr3 ℂ) (kc : ℕ → Vec3 ℝ) (omega : ℝ) (k : ℕ) :
    kuboTerm L pos eng hops comp s kc omega k = pairSum L.D.nb (kuboFactor L omega) (fun a b => velocity L.lat pos eng hops (kc k) comp.1 a b)
      (fun a b => velocity L.lat pos eng hops (kc k) comp.2 a b) (rowOf s k) (rowOf s k) := by
  unfold kuboTerm pairSum
  refine Finset.sum_congr rfl fun j _ => Finset.sum_congr rfl fun l _ => ?_
  unfold kuboFactor bracket matEl rowOf
  simp only
  split_ifs
  · ring
  · ring

/-- The conductivity likewise. -/
theorem kubo_unique (L : Lind) {D' : Diag} {c : ℝ} (hnb : D'.nb = L.D.nb) {s t : (ℕ → ℕ → ℝ) × Arr3 ℂ} (pos : ℤ → Vec3 ℝ) (eng : List ℝ)
    (hops : List (Cell × Pair × ℂ)) (comp : Fin 3 × Fin 3) (kc : ℕ → Vec3 ℝ) (omega : ℝ)
    (h : ∀ k < L.numKpt, ∃ m, Eigenpairs L.D.nb L.D.nb m (rowOf s k) ∧ Eigenpairs L.D.nb L.D.nb m (rowDown c t k)) :
    kuboSum (L.withSolver D' c) pos eng hops comp t kc omega = kuboSum L pos eng hops comp s kc omega := by
  unfold kuboSum
  refine Finset.sum_congr rfl fun k hk => ?_
  obtain ⟨m, hm1, hm2⟩ := h k (Finset.mem_range.1 hk)
  rw [kubo_pairs, kubo_pairs, pair_unique _ _ _ hm1 hm2 hm1 hm2]
  show pairSum D'.nb _ _ _ _ _ = _
  rw [hnb]
  unfold pairSum
  refine Finset.sum_congr rfl fun j _ => Finset.sum_congr rfl fun l _ => ?_
  have e : kuboFactor (L.withSolver D' c) omega ((rowOf t k).1 j) ((rowOf t k).1 l) =
      kuboFactor L omega ((rowDown c t k).1 j) ((rowDown c t k).1 l) := by
    unfold kuboFactor rowOf rowDown Lind.withSolver
    simp only
    rw [show t.1 k j - (L.mu + c) = t.1 k j - c - L.mu by ring, show t.1 k l - (L.mu + c) = t.1 k l - c - L.mu by ring,
      show t.1 k j - c - (t.1 k l - c) = t.1 k j - t.1 k l by ring]
  rw [e]
  rfl

end Verif

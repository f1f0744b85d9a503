import Verif.Model.Cube
import Verif.Spec.Cube
import Verif.Proof.Atom
import Verif.Proof.Advanced
import Mathlib.Tactic.Tauto

/-! # Facts about `plot_wfc3d` -/

namespace Verif.Cube

open CubeSpec AtomSpec

theorem symInts_mem (m i : ℤ) : i ∈ symInts m ↔ -m ≤ i ∧ i ≤ m := by
  simp only [symInts, List.mem_map, List.mem_range]
  constructor
  · rintro ⟨a, ha, rfl⟩
    omega
  · rintro ⟨h1, h2⟩
    exact ⟨(i + m).toNat, by omega, by omega⟩

theorem symInts_nodup (m : ℤ) : (symInts m).Nodup :=
  List.nodup_range.map fun a b h => by simpa using h

theorem rnFrac_mem (m R : Fin 3 → ℤ) : R ∈ rnFrac m ↔ R ∈ box m := by
  simp only [rnFrac, List.mem_flatMap, List.mem_map, symInts_mem, box, Fintype.mem_piFinset, Finset.mem_Icc]
  constructor
  · rintro ⟨i, hi, j, hj, k, hk, rfl⟩
    intro c
    fin_cases c
    · exact hi
    · exact hj
    · exact hk
  · intro h
    refine ⟨R 0, h 0, R 1, h 1, R 2, h 2, ?_⟩
    funext c
    fin_cases c <;> rfl

theorem rnFrac_nodup (m : Fin 3 → ℤ) : (rnFrac m).Nodup := by
  unfold rnFrac
  rw [List.nodup_flatMap]
  refine ⟨fun i _ => ?_, ?_⟩
  · rw [List.nodup_flatMap]
    refine ⟨fun j _ => (symInts_nodup _).map fun a b h => by simpa using congrFun h 2, ?_⟩
    refine (symInts_nodup _).imp fun {a b} hab => ?_
    rw [Function.onFun, List.disjoint_left]
    intro x hx hx'
    simp only [List.mem_map] at hx hx'
    obtain ⟨u, _, rfl⟩ := hx
    obtain ⟨v, _, hv⟩ := hx'
    exact hab (by simpa using (congrFun hv 1).symm)
  · refine (symInts_nodup _).imp fun {a b} hab => ?_
    rw [Function.onFun, List.disjoint_left]
    intro x hx hx'
    simp only [List.mem_map, List.mem_flatMap] at hx hx'
    obtain ⟨_, _, u, _, rfl⟩ := hx
    obtain ⟨_, _, v, _, hv⟩ := hx'
    exact hab (by simpa using (congrFun hv 0).symm)

open Classical in
theorem rnFrac_toFinset (m : Fin 3 → ℤ) : (rnFrac m).toFinset = box m := by
  ext R
  rw [List.mem_toFinset, rnFrac_mem]

open Classical in
theorem rnFrac_sum (m : Fin 3 → ℤ) (f : (Fin 3 → ℤ) → ℂ) : ((rnFrac m).map f).sum = ∑ R ∈ box m, f R := by
  rw [← rnFrac_toFinset, List.sum_toFinset _ (rnFrac_nodup m)]

open Classical in
theorem rnFrac_length (m : Fin 3 → ℤ) : (rnFrac m).length = (box m).card := by
  rw [← rnFrac_toFinset, List.toFinset_card_of_nodup (rnFrac_nodup m)]

theorem blochState_eq (conv : ℤ) (k : Vec3 ℝ) (lat : Mat3 ℝ) (m : Fin 3 → ℤ) (o : Vec3 ℝ) (grid : Fin 3 → ℕ) (res : ℝ)
    (pos tau : Vec3 ℝ) (q : Atom.Qn) (x y z : ℕ) : blochState conv k lat (rnFrac m) o grid res pos tau q x y z =
    (∑ R ∈ box m, blochPhase conv k tau R * (Atom.setCube (posRn lat pos R) q o grid res (fun _ _ _ => 0) x y z : ℝ)) / (Real.sqrt ((box m).card : ℝ) : ℂ) := by
  have key : ∀ (rns : List (Fin 3 → ℤ)) (s : ℕ → ℕ → ℕ → ℂ), (rns.foldl (fun (s : ℕ → ℕ → ℕ → ℂ) rn =>
      let atomic := Atom.setCube (posRn lat pos rn) q o grid res fun _ _ _ => 0
      fun x y z => s x y z + blochPhase conv k tau rn * atomic x y z) s) x y z =
      s x y z + (rns.map fun R => blochPhase conv k tau R * (Atom.setCube (posRn lat pos R) q o grid res (fun _ _ _ => 0) x y z : ℝ)).sum := by
    intro rns
    induction rns with
    | nil => intro s; simp
    | cons R rns ih =>
      intro s
      rw [List.foldl_cons, ih, List.map_cons, List.sum_cons]
      ring
  unfold blochState
  dsimp only
  rw [key, rnFrac_sum, rnFrac_length, zero_add]

theorem orbLoop_eq (a : Args) (k : Vec3 ℝ) (lat : Mat3 ℝ) (rns : List (Fin 3 → ℤ)) (o : Vec3 ℝ) (grid : Fin 3 → ℕ) (res : ℝ)
    (pos taus : List (Vec3 ℝ)) (P T : ℕ → Vec3 ℝ) (Q : ℕ → Atom.Qn) (W : ℕ → ℂ) (n : ℕ)
    (hp : ∀ b < n, pos[b]? = some (P b)) (ht : ∀ b < n, taus[b]? = some (T b)) (hq : ∀ b < n, a.qns[b]? = some (Q b))
    (hw : ∀ b < n, a.wfc[b]? = some (W b)) (cube : ℕ → ℕ → ℕ → ℂ) :
    orbLoop a k lat rns o grid res pos taus n cube =
      .ok fun x y z => cube x y z + ∑ b ∈ Finset.range n, W b * blochState a.conv k lat rns o grid res (P b) (T b) (Q b) x y z := by
  induction n with
  | zero => simp [orbLoop]
  | succ n ih =>
    rw [orbLoop, ih (fun b h => hp b (by omega)) (fun b h => ht b (by omega)) (fun b h => hq b (by omega)) (fun b h => hw b (by omega)),
      hp n (by omega), ht n (by omega), hq n (by omega), hw n (by omega)]
    simp only [bind, Except.bind]
    congr 1
    funext x y z
    rw [Finset.sum_range_succ]
    ring

theorem bohr_pos : 0 < bohr2nm := by
  unfold bohr2nm
  norm_num

/-- What the call returns when nothing fails. -/
theorem plot_eq {n : ℕ} (pos tau : Fin n → Vec3 ℝ) (lat : Mat3 ℝ) (hlat : lat.det ≠ 0) (htau : ∀ b, Matrix.vecMul (tau b) lat = pos b)
    (a : Args) (q : Fin n → Atom.Qn) (c : Fin n → ℂ) (hq : a.qns = List.ofFn q) (hc : a.wfc = List.ofFn c)
    (m : Fin 3 → ℤ) (hm : a.rnMax = some m) (o s : Vec3 ℝ) (ho : boxOrigin (List.ofFn pos) a.origin = .ok o)
    (hs : boxSize (List.ofFn pos) a.size = .ok s) (hres : 0 < a.res) (hsize : ∀ x, 0 ≤ s x) :
    plotWfc3d (List.ofFn pos) lat a = .ok
      { natoms := (atomPos (bohr2nm⁻¹ • lat) (rnFrac m) (((List.ofFn pos).map fun p => (bohr2nm⁻¹ • p : Vec3 ℝ)).zip a.qns)).length
        origin := bohr2nm⁻¹ • o
        grid := fun x => ⌊s x / a.res⌋₊
        res := a.res / bohr2nm
        atoms := (atomPos (bohr2nm⁻¹ • lat) (rnFrac m) (((List.ofFn pos).map fun p => (bohr2nm⁻¹ • p : Vec3 ℝ)).zip a.qns)).map fun p => (p.2, p.1)
        data := (List.range ⌊s 0 / a.res⌋₊).flatMap fun x => (List.range ⌊s 1 / a.res⌋₊).flatMap fun y => (List.range ⌊s 2 / a.res⌋₊).map fun z =>
          kindPart a.kind (∑ b, c b * blochState a.conv (a.kPoint.getD 0) (bohr2nm⁻¹ • lat) (rnFrac m) (bohr2nm⁻¹ • o) (fun x => ⌊s x / a.res⌋₊)
            (a.res / bohr2nm) (bohr2nm⁻¹ • pos b) (tau b) (q b) x y z) } := by
  have hb := bohr_pos
  have hg : ∀ x, truncInt (s x / a.res) = ⌊s x / a.res⌋ := fun x => if_pos (div_nonneg (hsize x) hres.le)
  have hg0 : ∀ x, 0 ≤ ⌊s x / a.res⌋ := fun x => Int.floor_nonneg.2 (div_nonneg (hsize x) hres.le)
  have hneg : ¬ ∃ x, truncInt (s x / a.res) < 0 := by
    rintro ⟨x, hx⟩
    rw [hg] at hx
    exact absurd (hg0 x) (by omega)
  have hgrid : (fun x => (truncInt (s x / a.res)).toNat) = fun x => ⌊s x / a.res⌋₊ := by
    funext x
    rw [hg]
    rfl
  have hdet : (bohr2nm⁻¹ • lat : Mat3 ℝ).transpose.det ≠ 0 := by
    rw [Matrix.det_transpose, Matrix.det_smul]
    exact mul_ne_zero (pow_ne_zero _ (inv_ne_zero hb.ne')) hlat
  have hfrac : cart2frac (bohr2nm⁻¹ • lat : Mat3 ℝ) ((List.ofFn pos).map fun p => (bohr2nm⁻¹ • p : Vec3 ℝ)) 0 = some (List.ofFn tau) := by
    rw [cart2frac, if_neg hdet, List.map_map, List.map_ofFn]
    congr 2
    funext b
    simp only [Function.comp, cart2fracRow, sub_zero]
    rw [← htau b, ← Matrix.mulVec_transpose, ← Matrix.smul_mulVec, ← Matrix.transpose_smul, Matrix.mulVec_mulVec,
      Matrix.nonsing_inv_mul _ (isUnit_iff_ne_zero.2 hdet), Matrix.one_mulVec]
  have key := orbLoop_eq a (a.kPoint.getD 0) (bohr2nm⁻¹ • lat) (rnFrac m) (bohr2nm⁻¹ • o) (fun x => ⌊s x / a.res⌋₊) (a.res / bohr2nm)
    ((List.ofFn pos).map fun p => (bohr2nm⁻¹ • p : Vec3 ℝ)) (List.ofFn tau)
    (fun b => if h : b < n then bohr2nm⁻¹ • pos ⟨b, h⟩ else 0) (fun b => if h : b < n then tau ⟨b, h⟩ else 0)
    (fun b => if h : b < n then q ⟨b, h⟩ else ⟨0, 0, 0, 0⟩) (fun b => if h : b < n then c ⟨b, h⟩ else 0) n
    (fun b h => by simp [h]) (fun b h => by simp [h]) (fun b h => by simp [hq, h]) (fun b h => by simp [hc, h]) fun _ _ _ => 0
  have hlen : ((List.ofFn pos).map fun p => (bohr2nm⁻¹ • p : Vec3 ℝ)).length = n := by simp
  unfold plotWfc3d
  simp only [hm, ho, hs, bind, Except.bind, hfrac]
  rw [if_neg hneg]
  simp only [hgrid]
  rw [hlen, key]
  simp only [zero_add]
  have hgx : ∀ x, (truncInt (s x / a.res)).toNat = ⌊s x / a.res⌋₊ := congrFun hgrid
  have hsum : ∀ x y z : ℕ, (∑ b ∈ Finset.range n, (if h : b < n then c ⟨b, h⟩ else 0) *
      blochState a.conv (a.kPoint.getD 0) (bohr2nm⁻¹ • lat) (rnFrac m) (bohr2nm⁻¹ • o) (fun x => ⌊s x / a.res⌋₊)
        (a.res / bohr2nm) (if h : b < n then bohr2nm⁻¹ • pos ⟨b, h⟩ else 0) (if h : b < n then tau ⟨b, h⟩ else 0)
        (if h : b < n then q ⟨b, h⟩ else ⟨0, 0, 0, 0⟩) x y z) = ∑ b, c b *
      blochState a.conv (a.kPoint.getD 0) (bohr2nm⁻¹ • lat) (rnFrac m) (bohr2nm⁻¹ • o) (fun x => ⌊s x / a.res⌋₊)
        (a.res / bohr2nm) (bohr2nm⁻¹ • pos b) (tau b) (q b) x y z := by
    intro x y z
    rw [Finset.sum_range]
    refine Finset.sum_congr rfl fun b _ => ?_
    simp only [b.2, dite_true]
  simp only [hsum, hgx]

/-- The loop over the grid. -/
theorem grid_get (f : ℕ → ℕ → ℕ → ℝ) (nx ny nz i j k : ℕ) (hi : i < nx) (hj : j < ny) (hk : k < nz) :
    ((List.range nx).flatMap fun x => (List.range ny).flatMap fun y => (List.range nz).map fun z => f x y z)[(i * ny + j) * nz + k]? =
      some (f i j k) := by
  have h1 : ∀ x, ((List.range ny).flatMap fun y => (List.range nz).map fun z => f x y z).length = ny * nz := fun x =>
    flatMap_range_length _ nz (fun y => by simp) ny
  rw [show (i * ny + j) * nz + k = i * (ny * nz) + (j * nz + k) by ring,
    flatMap_range_get _ _ h1 nx i _ hi (by nlinarith), flatMap_range_get _ nz (fun y => by simp) ny j k hj hk]
  simp [hk]

theorem grid_length (f : ℕ → ℕ → ℕ → ℝ) (nx ny nz : ℕ) :
    ((List.range nx).flatMap fun x => (List.range ny).flatMap fun y => (List.range nz).map fun z => f x y z).length = nx * (ny * nz) :=
  flatMap_range_length _ _ (fun x => flatMap_range_length _ nz (fun y => by simp) ny) nx

theorem foldl_min (ps : List (Vec3 ℝ)) (i : Fin 3) (v : ℝ) :
    (ps.foldl (fun a q => min a (q i)) v ≤ v ∧ ∀ p ∈ ps, ps.foldl (fun a q => min a (q i)) v ≤ p i) ∧
      (ps.foldl (fun a q => min a (q i)) v = v ∨ ∃ p ∈ ps, ps.foldl (fun a q => min a (q i)) v = p i) := by
  induction ps generalizing v with
  | nil => simp
  | cons p ps ih =>
    obtain ⟨⟨h1, h2⟩, h3⟩ := ih (min v (p i))
    rw [List.foldl_cons]
    refine ⟨⟨h1.trans (min_le_left _ _), ?_⟩, ?_⟩
    · intro q hq
      rcases List.mem_cons.1 hq with rfl | hq
      · exact h1.trans (min_le_right _ _)
      · exact h2 q hq
    · rcases h3 with h3 | ⟨q, hq, h3⟩
      · rcases min_choice v (p i) with h | h
        · exact Or.inl (h3.trans h)
        · exact Or.inr ⟨p, List.mem_cons_self .., h3.trans h⟩
      · exact Or.inr ⟨q, List.mem_cons_of_mem _ hq, h3⟩

theorem foldl_max (ps : List (Vec3 ℝ)) (i : Fin 3) (v : ℝ) :
    (v ≤ ps.foldl (fun a q => max a (q i)) v ∧ ∀ p ∈ ps, p i ≤ ps.foldl (fun a q => max a (q i)) v) ∧
      (ps.foldl (fun a q => max a (q i)) v = v ∨ ∃ p ∈ ps, ps.foldl (fun a q => max a (q i)) v = p i) := by
  induction ps generalizing v with
  | nil => simp
  | cons p ps ih =>
    obtain ⟨⟨h1, h2⟩, h3⟩ := ih (max v (p i))
    rw [List.foldl_cons]
    refine ⟨⟨(le_max_left _ _).trans h1, ?_⟩, ?_⟩
    · intro q hq
      rcases List.mem_cons.1 hq with rfl | hq
      · exact (le_max_right _ _).trans h1
      · exact h2 q hq
    · rcases h3 with h3 | ⟨q, hq, h3⟩
      · rcases max_choice v (p i) with h | h
        · exact Or.inl (h3.trans h)
        · exact Or.inr ⟨p, List.mem_cons_self .., h3.trans h⟩
      · exact Or.inr ⟨q, List.mem_cons_of_mem _ hq, h3⟩

theorem colMin_eq {n : ℕ} (pos : Fin n → Vec3 ℝ) (i : Fin 3) {v : ℝ} (h : IsLeast (Set.range fun b => pos b i) v) :
    colMin (List.ofFn pos) i = some v := by
  have hmem : ∀ p, p ∈ List.ofFn pos ↔ ∃ b, pos b = p := fun p => by simp [List.mem_ofFn]
  obtain ⟨⟨b0, hb0⟩, hle⟩ := h
  cases hl : List.ofFn pos with
  | nil => exact absurd ((hmem (pos b0)).2 ⟨b0, rfl⟩) (by rw [hl]; simp)
  | cons p ps =>
    rw [hl] at hmem
    obtain ⟨⟨h1, h2⟩, h3⟩ := foldl_min ps i (p i)
    rw [colMin]
    congr 1
    refine le_antisymm ?_ ?_
    · rw [← hb0]
      rcases List.mem_cons.1 ((hmem (pos b0)).2 ⟨b0, rfl⟩) with h | h
      · show _ ≤ pos b0 i
        rw [h]; exact h1
      · exact h2 _ h
    · rcases h3 with h3 | ⟨r, hr, h3⟩
      · obtain ⟨b, hb⟩ := (hmem p).1 (List.mem_cons_self ..)
        rw [h3, ← hb]
        exact hle ⟨b, rfl⟩
      · obtain ⟨b, hb⟩ := (hmem r).1 (List.mem_cons_of_mem _ hr)
        rw [h3, ← hb]
        exact hle ⟨b, rfl⟩

theorem colMax_eq {n : ℕ} (pos : Fin n → Vec3 ℝ) (i : Fin 3) {v : ℝ} (h : IsGreatest (Set.range fun b => pos b i) v) :
    colMax (List.ofFn pos) i = some v := by
  have hmem : ∀ p, p ∈ List.ofFn pos ↔ ∃ b, pos b = p := fun p => by simp [List.mem_ofFn]
  obtain ⟨⟨b0, hb0⟩, hle⟩ := h
  cases hl : List.ofFn pos with
  | nil => exact absurd ((hmem (pos b0)).2 ⟨b0, rfl⟩) (by rw [hl]; simp)
  | cons p ps =>
    rw [hl] at hmem
    obtain ⟨⟨h1, h2⟩, h3⟩ := foldl_max ps i (p i)
    rw [colMax]
    congr 1
    refine le_antisymm ?_ ?_
    · rcases h3 with h3 | ⟨r, hr, h3⟩
      · obtain ⟨b, hb⟩ := (hmem p).1 (List.mem_cons_self ..)
        rw [h3, ← hb]
        exact hle ⟨b, rfl⟩
      · obtain ⟨b, hb⟩ := (hmem r).1 (List.mem_cons_of_mem _ hr)
        rw [h3, ← hb]
        exact hle ⟨b, rfl⟩
    · rw [← hb0]
      rcases List.mem_cons.1 ((hmem (pos b0)).2 ⟨b0, rfl⟩) with h | h
      · show pos b0 i ≤ _
        rw [h]; exact h1
      · exact h2 _ h

theorem sizeOf_eq (lo hi : ℝ) : sizeOf lo hi = max 1 (hi - lo) := by
  unfold sizeOf
  split_ifs with h
  · rw [max_eq_right]
    norm_num at h
    linarith
  · rw [max_eq_left]
    · norm_num
    · norm_num at h
      linarith

theorem boxOrigin_eq {n : ℕ} (pos : Fin n → Vec3 ℝ) (arg : Option (Vec3 ℝ)) (o : Vec3 ℝ) (h : OriginIs pos arg o) :
    boxOrigin (List.ofFn pos) arg = .ok o := by
  rcases h with rfl | ⟨rfl, h⟩
  · rfl
  · rw [boxOrigin, colMin_eq pos 0 (h 0), colMin_eq pos 1 (h 1), colMin_eq pos 2 (h 2)]
    simp only [Except.ok.injEq]
    funext x
    fin_cases x <;> rfl

theorem boxSize_eq {n : ℕ} (pos : Fin n → Vec3 ℝ) (arg : Option (Vec3 ℝ)) (s : Vec3 ℝ) (h : SizeIs pos arg s) :
    boxSize (List.ofFn pos) arg = .ok s := by
  rcases h with rfl | ⟨rfl, h⟩
  · rfl
  · obtain ⟨lo0, hi0, a0, b0, c0⟩ := h 0
    obtain ⟨lo1, hi1, a1, b1, c1⟩ := h 1
    obtain ⟨lo2, hi2, a2, b2, c2⟩ := h 2
    rw [boxSize, colMin_eq pos 0 a0, colMin_eq pos 1 a1, colMin_eq pos 2 a2, colMax_eq pos 0 b0, colMax_eq pos 1 b1, colMax_eq pos 2 b2]
    simp only [Except.ok.injEq, sizeOf_eq, ← c0, ← c1, ← c2]
    funext x
    fin_cases x <;> rfl

/-! ## The atoms -/

open Classical in
theorem atomPos_spec (lat : Mat3 ℝ) (rns : List (Fin 3 → ℤ)) (pq : List (Vec3 ℝ × Atom.Qn)) :
    (atomPos lat rns pq).WF ∧ (∀ p, p ∈ (atomPos lat rns pq).keys ↔ ∃ x ∈ pq, ∃ R ∈ rns, p = posRn lat x.1 R) ∧
      ∀ p z, (atomPos lat rns pq).get? p = some z → ∃ x ∈ pq, ∃ R ∈ rns, p = posRn lat x.1 R ∧ z = x.2.z := by
  have inner : ∀ (x : Vec3 ℝ × Atom.Qn) (rns : List (Fin 3 → ℤ)) (d : PyDict (Vec3 ℝ) ℤ), d.WF →
      (rns.foldl (fun d rn => PyDict.set d (posRn lat x.1 rn) x.2.z) d).WF ∧
      (∀ p, p ∈ (rns.foldl (fun d rn => PyDict.set d (posRn lat x.1 rn) x.2.z) d).keys ↔ p ∈ d.keys ∨ ∃ R ∈ rns, p = posRn lat x.1 R) ∧
      ∀ p z, (rns.foldl (fun d rn => PyDict.set d (posRn lat x.1 rn) x.2.z) d).get? p = some z →
        d.get? p = some z ∨ ∃ R ∈ rns, p = posRn lat x.1 R ∧ z = x.2.z := by
    intro x rns
    induction rns with
    | nil => intro d hd; simp [hd]
    | cons R rns ih =>
      intro d hd
      obtain ⟨h1, h2, h3⟩ := ih (PyDict.set d (posRn lat x.1 R) x.2.z) (PyDict.WF_set hd _ _)
      rw [List.foldl_cons]
      refine ⟨h1, fun p => ?_, fun p z hz => ?_⟩
      · rw [h2, PyDict.mem_keys_set]
        simp only [List.mem_cons, exists_eq_or_imp]
        tauto
      · rcases h3 p z hz with h | ⟨R', hR', h⟩
        · rw [PyDict.get?_set] at h
          split_ifs at h with hp
          · exact Or.inr ⟨R, List.mem_cons_self .., hp, (Option.some.inj h).symm⟩
          · exact Or.inl h
        · exact Or.inr ⟨R', List.mem_cons_of_mem _ hR', h⟩
  have outer : ∀ (pq : List (Vec3 ℝ × Atom.Qn)) (d : PyDict (Vec3 ℝ) ℤ), d.WF →
      (pq.foldl (fun d p => rns.foldl (fun d rn => PyDict.set d (posRn lat p.1 rn) p.2.z) d) d).WF ∧
      (∀ p, p ∈ (pq.foldl (fun d p => rns.foldl (fun d rn => PyDict.set d (posRn lat p.1 rn) p.2.z) d) d).keys ↔
        p ∈ d.keys ∨ ∃ x ∈ pq, ∃ R ∈ rns, p = posRn lat x.1 R) ∧
      ∀ p z, (pq.foldl (fun d p => rns.foldl (fun d rn => PyDict.set d (posRn lat p.1 rn) p.2.z) d) d).get? p = some z →
        d.get? p = some z ∨ ∃ x ∈ pq, ∃ R ∈ rns, p = posRn lat x.1 R ∧ z = x.2.z := by
    intro pq
    induction pq with
    | nil => intro d hd; simp [hd]
    | cons x pq ih =>
      intro d hd
      obtain ⟨i1, i2, i3⟩ := inner x rns d hd
      obtain ⟨h1, h2, h3⟩ := ih _ i1
      rw [List.foldl_cons]
      refine ⟨h1, fun p => ?_, fun p z hz => ?_⟩
      · rw [h2, i2]
        simp only [List.mem_cons, exists_eq_or_imp]
        exact or_assoc
      · rcases h3 p z hz with h | ⟨y, hy, h⟩
        · rcases i3 p z h with h | h
          · exact Or.inl h
          · exact Or.inr ⟨x, List.mem_cons_self .., h⟩
        · exact Or.inr ⟨y, List.mem_cons_of_mem _ hy, h⟩
  obtain ⟨h1, h2, h3⟩ := outer pq [] PyDict.WF_nil
  refine ⟨h1, fun p => ?_, fun p z hz => ?_⟩
  · rw [atomPos, h2]
    simp
  · simpa using h3 p z hz

end Verif.Cube

import Verif.Model.Visual
import Verif.Props.Base
import Verif.Props.Plot
import Verif.Proof.LindhardMesh

/-!
# Properties of the class `Visualizer` (C121)
-/

namespace Verif.Props

open Plot PlotSpec Visual

/-- Specification: the length of leg `i` of a path through the given points, in Cartesian reciprocal coordinates. -/
noncomputable def legLen (B : Mat3 ℝ) (hs : List (Vec3 ℝ)) (i : ℕ) : ℝ :=
  norm3 (fun x => ∑ a, (hs.getD (i + 1) 0 a - hs.getD i 0 a) * B a x)

/-- Specification: the distance travelled on a path when the fraction `t` of leg `i` has been done. -/
noncomputable def travelled (B : Mat3 ℝ) (hs : List (Vec3 ℝ)) (i : ℕ) (t : ℝ) : ℝ :=
  ((List.range i).map (legLen B hs)).sum + t * legLen B hs i

theorem path_closed {hs : List (Vec3 ℝ)} {num : List ℕ} {path : List (Vec3 ℝ)} {idx : List ℕ} (h : genKpath hs num = some (path, idx))
    (hn : ∀ n ∈ num, 0 < n) {i n : ℕ} (hi : num[i]? = some n) {j : ℕ} (hj : j ≤ n) :
    path[(num.take i).sum + j]? = some (hs.getD i 0 + ((j : ℝ) / n) • (hs.getD (i + 1) 0 - hs.getD i 0)) := by
  obtain ⟨h1, h2, h3, h4, p, k, h5, h6, h7, h8⟩ := C39_kpath_partial h
  have hidx : ∀ i < num.length + 1, idx[i]? = some (num.take i).sum := by
    unfold genKpath at h
    split_ifs at h
    simp only [Option.some.injEq, Prod.mk.injEq] at h
    rw [← h.2]
    intro i hi
    rw [List.getElem?_map, List.getElem?_range hi]; rfl
  have hl : hs.length = num.length + 1 := by
    have := h2
    unfold genKpath at h
    split_ifs at h with hc
    simpa using hc
  have hin : i < num.length := (List.getElem?_eq_some_iff.1 hi).1
  have g0 : hs[i]? = some (hs.getD i 0) := by
    rw [List.getElem?_eq_getElem (by omega), List.getD_eq_getElem?_getD, List.getElem?_eq_getElem (by omega)]; rfl
  have g1 : hs[i + 1]? = some (hs.getD (i + 1) 0) := by
    rw [List.getElem?_eq_getElem (by omega), List.getD_eq_getElem?_getD, List.getElem?_eq_getElem (by omega)]; rfl
  have hn0 : 0 < n := hn n (List.mem_of_getElem? hi)
  rcases Nat.lt_or_ge j n with hlt | hge
  · obtain ⟨q, hq, hp⟩ := h3 i n _ _ hi g0 g1
    rw [hidx i (by omega), Option.some.injEq] at hq
    subst hq
    exact hp j hlt
  · have hjn : j = n := le_antisymm hj hge
    subst hjn
    have e : (num.take i).sum + j = (num.take (i + 1)).sum := by
      rw [List.take_add_one, hi]; simp
    have e2 : hs.getD i 0 + ((j : ℝ) / j) • (hs.getD (i + 1) 0 - hs.getD i 0) = hs.getD (i + 1) 0 := by
      rw [div_self (by exact_mod_cast hn0.ne'), one_smul]; abel
    rw [e, e2]
    rcases Nat.lt_or_ge (i + 1) num.length with hl1 | hl1
    · have hm : num[i + 1]? = some num[i + 1] := List.getElem?_eq_getElem hl1
      obtain ⟨q, hq, hp⟩ := h4 (i + 1) _ _ hm (hn _ (List.getElem_mem hl1)) g1
      rw [hidx (i + 1) (by omega), Option.some.injEq] at hq
      subst hq
      exact hp
    · have hl2 : i + 1 = num.length := by omega
      rw [hl2] at g1 ⊢
      rw [hidx _ (by omega), Option.some.injEq] at h5
      rw [h6, Option.some.injEq] at g1
      rw [← g1, h5]
      exact h7

/-- **C121 (axis).** On a path made by `gen_kpath` with at least one point per leg, the distance `gen_kdist` gives for point `j` of leg `i` is the length
of the preceding legs plus the fraction `j/n` of leg `i`. -/
theorem C121_axis {lat : Mat3 ℝ} {hs : List (Vec3 ℝ)} {num : List ℕ} {path : List (Vec3 ℝ)} {idx : List ℕ} {kLen : List ℝ}
    (h : genKpath hs num = some (path, idx)) (hn : ∀ n ∈ num, 0 < n) (hd : genKdist lat path = some kLen) :
    ∃ B, genReciprocal lat = some B ∧ kLen.length = path.length ∧
      (∀ i ≤ num.length, kLen[(num.take i).sum]? = some (travelled B hs i 0)) ∧
      ∀ (i n : ℕ), num[i]? = some n → ∀ j ≤ n, kLen[(num.take i).sum + j]? = some (travelled B hs i (j / n)) := by
  obtain ⟨d1, d2, B, hB, d3⟩ := C73_kdist hd
  obtain ⟨p1, -⟩ := C39_kpath_partial h
  -- one leg
  have leg : ∀ (i n : ℕ), num[i]? = some n → kLen[(num.take i).sum]? = some (travelled B hs i 0) → ∀ j ≤ n,
      kLen[(num.take i).sum + j]? = some (travelled B hs i (j / n)) := by
    intro i n hi h0 j
    have hn0 : (0 : ℝ) < n := by exact_mod_cast hn n (List.mem_of_getElem? hi)
    induction j with
    | zero => intro _; simpa using h0
    | succ j ih =>
      intro hj
      have ih := ih (by omega)
      have q0 := path_closed h hn hi (j := j) (by omega)
      have q1 := path_closed h hn hi (j := j + 1) hj
      have hlt : (num.take i).sum + j + 1 < kLen.length := by
        rw [d1]; exact (List.getElem?_eq_some_iff.1 (by rw [← Nat.add_assoc] at q1; exact q1)).1
      have hg := List.getElem?_eq_getElem hlt
      rw [← Nat.add_assoc] at q1 ⊢
      have hstep := (d3 _ _ _ _ _ q0 q1 ih hg).2
      rw [hg, hstep]
      congr 1
      have e : (fun x => ∑ a, ((hs.getD i 0 + (((j + 1 : ℕ) : ℝ) / n) • (hs.getD (i + 1) 0 - hs.getD i 0)) a -
          (hs.getD i 0 + ((j : ℝ) / n) • (hs.getD (i + 1) 0 - hs.getD i 0)) a) * B a x) =
          fun x => (1 / (n : ℝ)) * (∑ a, (hs.getD (i + 1) 0 a - hs.getD i 0 a) * B a x) := by
        funext x
        rw [Finset.mul_sum]
        refine Finset.sum_congr rfl fun a _ => ?_
        simp only [Pi.add_apply, Pi.smul_apply, Pi.sub_apply, smul_eq_mul]
        push_cast
        field_simp
        ring
      rw [e, norm3_smul, abs_of_pos (by positivity)]
      unfold travelled legLen
      push_cast
      field_simp
      ring
  have hstart : ∀ i ≤ num.length, kLen[(num.take i).sum]? = some (travelled B hs i 0) := by
    intro i
    induction i with
    | zero =>
      intro _
      have hlt : 0 < kLen.length := by rw [d1, p1]; omega
      have hg := List.getElem?_eq_getElem hlt
      simp only [List.take_zero, List.sum_nil]
      rw [hg, d2 _ hg]
      simp [travelled]
    | succ i ih =>
      intro hi
      have hm : num[i]? = some num[i] := List.getElem?_eq_getElem (by omega)
      have hn0 : (0 : ℝ) < num[i] := by exact_mod_cast hn _ (List.getElem_mem (by omega))
      have := leg i _ hm (ih (by omega)) _ (le_refl _)
      rw [List.take_add_one, hm]
      simp only [List.sum_append, Option.toList_some, List.sum_singleton]
      rw [this, div_self hn0.ne']
      unfold travelled
      rw [List.range_succ]
      simp
  exact ⟨B, hB, d1, hstart, fun i n hi => leg i n hi (hstart i (List.getElem?_eq_some_iff.1 hi).1.le)⟩

/-- What is seen of the curves of a figure. -/
def curvesOf (fig : List VCmd) : List (List (ℝ × ℝ)) := fig.filterMap fun c => match c with | .curve l => some l | _ => none

/-- The vertical lines of a figure. -/
def vlinesOf (fig : List VCmd) : List ℝ := fig.filterMap fun c => match c with | .vline x => some x | _ => none

/-- The labels of the horizontal axis of a figure. -/
def ticksOf (fig : List VCmd) : List (ℝ × String) := fig.flatMap fun c => match c with | .ticks l => l | _ => []

/-- The range of the horizontal axis of a figure. -/
def xlimOf (fig : List VCmd) : List (ℝ × ℝ) := fig.filterMap fun c => match c with | .xlim a b => some (a, b) | _ => none

theorem mapM_ok_map {A B : Type*} (f : A → Except Err B) (g : A → B) : ∀ (l : List A), (∀ a ∈ l, f a = .ok (g a)) → l.mapM f = .ok (l.map g)
  | [], _ => rfl
  | a :: l, h => by
    rw [List.mapM_cons, h a (by simp), mapM_ok_map f g l (fun b hb => h b (by simp [hb]))]
    rfl

/-- **C121 (bands).** The picture of the bands along a path of `gen_kpath` with at least one point per leg, drawn with the distances of `gen_kdist`:
for every band there is one curve, which at the distance travelled to point `j` of leg `i` has the energy of the band at this point; every high-symmetry
point is marked and labelled at the distance travelled to it; the axis ends with the path. -/
theorem C121_bands {lat : Mat3 ℝ} {hs : List (Vec3 ℝ)} {num : List ℕ} {path : List (Vec3 ℝ)} {idx : List ℕ} {kLen : List ℝ}
    (h : genKpath hs num = some (path, idx)) (hn : ∀ n ∈ num, 0 < n) (hd : genKdist lat path = some kLen) {nb : ℕ} {bands : List (List ℝ)}
    (hb : bands.length = path.length) {labels : List String} (hlab : labels.length = hs.length) :
    ∃ B fig, genReciprocal lat = some B ∧ plotBands true kLen nb bands (idx.map Int.ofNat) labels = .ok fig ∧
      (curvesOf fig).length = nb ∧
      (∀ b < nb, ∃ c, (curvesOf fig)[b]? = some c ∧ c.length = path.length ∧
        ∀ (i n : ℕ), num[i]? = some n → ∀ j ≤ n, ∃ r, bands[(num.take i).sum + j]? = some r ∧
          c[(num.take i).sum + j]? = some (travelled B hs i (j / n), r.getD b 0)) ∧
      vlinesOf fig = (List.range hs.length).map (fun i => travelled B hs i 0) ∧
      ticksOf fig = ((List.range hs.length).map (fun i => travelled B hs i 0)).zip labels ∧
      xlimOf fig = [(0, travelled B hs num.length 0)] := by
  obtain ⟨B, hB, hl, hstart, hleg⟩ := C121_axis h hn hd
  obtain ⟨p1, p2, -⟩ := C39_kpath_partial h
  have hidx : idx = (List.range (num.length + 1)).map (fun i => (num.take i).sum) ∧ hs.length = num.length + 1 := by
    unfold genKpath at h
    split_ifs at h with hc
    simp only [Option.some.injEq, Prod.mk.injEq] at h
    exact ⟨h.2.symm, by simpa using hc⟩
  have hmarks : (idx.map Int.ofNat).mapM (tickAt kLen) = .ok ((List.range hs.length).map (fun i => travelled B hs i 0)) := by
    rw [hidx.1, hidx.2, List.map_map, List.mapM_map]
    refine mapM_ok_map _ _ _ ?_
    intro i hi
    rw [List.mem_range] at hi
    have := hstart i (by omega)
    obtain ⟨hlt, -⟩ := List.getElem?_eq_some_iff.1 this
    simp only [Function.comp, tickAt, pyIndex]
    rw [if_pos ⟨Int.natCast_nonneg _, Int.ofNat_lt.2 hlt⟩]
    simp only [Int.ofNat_eq_natCast, Int.toNat_natCast]
    rw [List.getD_eq_getElem?_getD, this]
    rfl
  have hcur : (List.range nb).mapM (bandCurve kLen bands) =
      .ok ((List.range nb).map fun i => VCmd.curve (kLen.zip (bands.map fun r => r.getD i 0))) := by
    refine mapM_ok_map _ _ _ ?_
    intro i _
    unfold bandCurve
    rw [if_pos (by rw [hl, hb])]
  -- the distances do not decrease
  obtain ⟨d1, d2, B', -, d3⟩ := C73_kdist hd
  have hmono : ∀ m k : ℕ, ∀ u v, kLen[k]? = some u → kLen[k + m]? = some v → u ≤ v := by
    intro m
    induction m with
    | zero => intro k u v hu hv; rw [Nat.add_zero, hu] at hv; exact le_of_eq (Option.some.inj hv)
    | succ m ih =>
      intro k u v hu hv
      have hlt := (List.getElem?_eq_some_iff.1 hv).1
      have h0 : kLen[k + m]? = some kLen[k + m] := List.getElem?_eq_getElem (by omega)
      have q0 : path[k + m]? = some (path[k + m]'(by omega)) := List.getElem?_eq_getElem (by omega)
      have q1 : path[k + m + 1]? = some (path[k + m + 1]'(by omega)) := List.getElem?_eq_getElem (by omega)
      exact (ih k u _ hu h0).trans (d3 _ _ _ _ _ q0 q1 h0 hv).1
  have hmax : kLen.max? = some (travelled B hs num.length 0) := by
    have hlast := hstart num.length (le_refl _)
    rw [List.take_length] at hlast
    rw [List.max?_eq_some_iff]
    refine ⟨List.mem_of_getElem? hlast, ?_⟩
    intro x hx
    obtain ⟨k, hk, rfl⟩ := List.getElem_of_mem hx
    refine hmono (num.sum - k) k _ _ (List.getElem?_eq_getElem hk) ?_
    rw [show k + (num.sum - k) = num.sum by omega]
    exact hlast
  refine ⟨B, (List.range nb).map (fun i => VCmd.curve (kLen.zip (bands.map fun r => r.getD i 0))) ++
    ((List.range hs.length).map (fun i => travelled B hs i 0)).map .vline ++
    [.xlim 0 (travelled B hs num.length 0), .ticks (((List.range hs.length).map (fun i => travelled B hs i 0)).zip labels)], hB, ?_, ?_, ?_, ?_, ?_, ?_⟩
  · unfold plotBands
    rw [if_neg (by simp), hcur, hmarks, hmax]
    simp only [bind, Except.bind]
    rw [if_neg (by simp [hlab])]
  · simp [curvesOf, List.filterMap_append, List.filterMap_map, Function.comp_def]
  · intro b hbn
    refine ⟨kLen.zip (bands.map fun r => r.getD b 0), ?_, ?_, ?_⟩
    · have : curvesOf ((List.range nb).map (fun i => VCmd.curve (kLen.zip (bands.map fun r => r.getD i 0))) ++
          ((List.range hs.length).map (fun i => travelled B hs i 0)).map .vline ++
          [.xlim 0 (travelled B hs num.length 0), .ticks (((List.range hs.length).map (fun i => travelled B hs i 0)).zip labels)]) =
          (List.range nb).map fun i => kLen.zip (bands.map fun r => r.getD i 0) := by
        simp [curvesOf, List.filterMap_append, List.filterMap_map, Function.comp_def]
      rw [this, List.getElem?_map, List.getElem?_range hbn]
      rfl
    · simp [hl, hb]
    · intro i n hi j hj
      have hk := hleg i n hi j hj
      have hlt := (List.getElem?_eq_some_iff.1 hk).1
      have hr : bands[(num.take i).sum + j]? = some (bands[(num.take i).sum + j]'(by omega)) := List.getElem?_eq_getElem (by omega)
      refine ⟨_, hr, ?_⟩
      rw [List.getElem?_zip_eq_some]
      exact ⟨hk, by rw [List.getElem?_map, hr]; rfl⟩
  · simp [vlinesOf, List.filterMap_append, List.filterMap_map, Function.comp_def]
  · have hz : ∀ l : List ℕ, l.flatMap (fun _ => ([] : List (ℝ × String))) = [] := by
      intro l
      induction l <;> simp_all
    simp [ticksOf, List.flatMap_append, List.flatMap_map, Function.comp_def, hz]
  · simp [xlimOf, List.filterMap_append, List.filterMap_map, Function.comp_def]

/-- The lines of a figure. -/
def linesOf (fig : List VCmd) : List ((ℝ × ℝ) × (ℝ × ℝ)) := fig.flatMap fun c => match c with | .lines l => l | _ => []

/-- The dots of a figure with the numbers giving the colour. -/
def dotsOf (fig : List VCmd) : List ((ℝ × ℝ) × ℝ) := fig.flatMap fun c => match c with | .dots l => l | _ => []

/-- The arrows of a figure. -/
def arrowsOf (fig : List VCmd) : List ((ℝ × ℝ) × (ℝ × ℝ) × Option ℝ) := fig.flatMap fun c => match c with | .arrows l => l | _ => []

variable {Λ : Type*}

/-- The bond of a hopping term, seen along `z`. -/
noncomputable def bondXY (s : PrimCell ℝ ℂ Λ) (t : Cell × Pair × ℂ) : (ℝ × ℝ) × (ℝ × ℝ) :=
  (seen 0 1 (sitePos s 0 t.2.1.1.toNat), seen 0 1 (sitePos s t.1 t.2.1.2.toNat))

theorem frac2cart_site (s : PrimCell ℝ ℂ Λ) {k : ℕ} (hk : k < s.orbs.length) :
    (frac2cart s.lat (s.orbs.map Orbital.position) s.origin)[k]? = some (sitePos s 0 k) := by
  unfold sitePos frac2cart
  rw [List.getElem?_map, List.getElem?_map, List.getElem?_eq_getElem hk]
  have h0 : cellVec ℝ 0 = 0 := by
    funext x
    fin_cases x <;> simp [cellVec]
  simp [h0]

theorem plotModelCell_spec (H : HashFns ℝ ℂ Λ) (s : PrimCell ℝ ℂ Λ) (hwf : s.WF) (hsync : PrimCell.SyncOK H s) (h0 : s.hops.toList ≠ []) :
    ∃ fig, (plotModelCell H s).2 = .ok fig ∧ linesOf fig = s.hops.toList.map (bondXY s) ∧ dotsOf fig = [] := by
  have hrange := (PrimCell.WF_reduced hwf).2
  have hr0 := PrimCell.syncOrb_rest H s false
  have hsync0 : PrimCell.SyncOK H (s.syncOrb H false) := by
    constructor
    · intro _
      rw [hr0.2.2.2.1]
      exact PrimCell.syncOrb_fresh hsync false
    · rw [hr0.2.2.2.2.1, hr0.2.2.2.2.2.1, hr0.2.2.2.2.2.2.1, hr0.2.2.2.2.2.2.2.1]
      exact hsync.hop
  have hr1 := PrimCell.syncHop_rest H (s.syncOrb H false) false
  have hf1 := PrimCell.syncHop_fresh hsync0 false
  have hf0 := PrimCell.syncOrb_fresh hsync false
  unfold plotModelCell
  generalize hs1 : (s.syncOrb H false).syncHop H false = s1 at hr1 hf1
  have elat : s1.lat = s.lat := hr1.2.1.trans hr0.2.1
  have eorg : s1.origin = s.origin := hr1.2.2.1.trans hr0.2.2.1
  have epos : s1.arrPos = s.orbs.map Orbital.position := hr1.2.2.2.2.2.2.1.trans hf0.1
  have eind : s1.arrInd = s.hops.toList.map (fun t => (t.1, t.2.1)) := by rw [hf1.1, hr0.2.2.2.2.1]
  have edr : drNm s1 = .ok (s.hops.toList.map fun t => frac2cartRow s.lat 0 (s.orbs[t.2.1.2.toNat]?.elim 0 Orbital.position +
      ![(t.1.1 : ℝ), (t.1.2.1 : ℝ), (t.1.2.2 : ℝ)] - s.orbs[t.2.1.1.toNat]?.elim 0 Orbital.position)) := by
    unfold drNm dr
    rw [eind, List.mapM_map, mapM_all_ok _ (fun t => s.orbs[t.2.1.2.toNat]?.elim 0 Orbital.position +
      ![(t.1.1 : ℝ), (t.1.2.1 : ℝ), (t.1.2.2 : ℝ)] - s.orbs[t.2.1.1.toNat]?.elim 0 Orbital.position), elat]
    · simp [bind, Except.bind, frac2cart]
    · intro t ht
      obtain ⟨⟨h1, h2⟩, h3, h4⟩ := hrange t ht
      rw [epos]
      dsimp only [Function.comp]
      have hg : ∀ k : ℕ, (s.orbs.map Orbital.position).getD k 0 = s.orbs[k]?.elim 0 Orbital.position := by
        intro k
        rw [List.getD_eq_getElem?_getD, List.getElem?_map]
        cases s.orbs[k]? <;> rfl
      rw [row_ok h3 (by simpa [PrimCell.numOrb] using h4), row_ok h1 (by simpa [PrimCell.numOrb] using h2), hg, hg]
      rfl
  have hzip : List.zip (s1.arrInd.map fun t => t.2.1) (s.hops.toList.map fun t => frac2cartRow s.lat 0 (s.orbs[t.2.1.2.toNat]?.elim 0 Orbital.position +
      ![(t.1.1 : ℝ), (t.1.2.1 : ℝ), (t.1.2.2 : ℝ)] - s.orbs[t.2.1.1.toNat]?.elim 0 Orbital.position)) =
      s.hops.toList.map fun t => (t.2.1.1, frac2cartRow s.lat 0 (s.orbs[t.2.1.2.toNat]?.elim 0 Orbital.position +
      ![(t.1.1 : ℝ), (t.1.2.1 : ℝ), (t.1.2.2 : ℝ)] - s.orbs[t.2.1.1.toNat]?.elim 0 Orbital.position)) := by
    rw [eind, List.map_map, List.zip_map']
    rfl
  have hlines : modelLines (frac2cart s1.lat s1.arrPos s1.origin) (s.hops.toList.map fun t => (t.2.1.1, frac2cartRow s.lat 0
      (s.orbs[t.2.1.2.toNat]?.elim 0 Orbital.position + ![(t.1.1 : ℝ), (t.1.2.1 : ℝ), (t.1.2.2 : ℝ)] -
        s.orbs[t.2.1.1.toNat]?.elim 0 Orbital.position))) = .ok (s.hops.toList.map (bondXY s)) := by
    unfold modelLines
    rw [List.mapM_map]
    refine mapM_ok_map _ _ _ ?_
    intro t ht
    obtain ⟨⟨h1, h2⟩, h3, h4⟩ := hrange t ht
    unfold PrimCell.numOrb at h2 h4
    rw [elat, eorg, epos]
    dsimp only [Function.comp]
    rw [row_ok h1 (by simpa [frac2cart] using h2), List.getD_eq_getElem?_getD, frac2cart_site s (by omega)]
    have hbe := (bond_end s t.1 t.2.1.1.toNat t.2.1.2.toNat).1
    simp only [bind, Except.bind, Option.getD_some]
    unfold bondXY seen
    rw [hbe]
  have hlen : ¬ (s1.arrInd.length = 0) := by
    rw [eind, List.length_map]; simpa using h0
  dsimp only
  rw [if_neg hlen, edr]
  simp only [bind, Except.bind]
  rw [hzip, hlines]
  exact ⟨_, rfl, by simp [linesOf], by simp [dotsOf]⟩

/-- **C121 (model).** The lines drawn along with data for a primitive cell reached by any history of calls are its hopping terms: each goes from orbital
`i` of cell 0 to orbital `j` of cell `R`, seen along `z`; and there are no others. -/
theorem C121_model (H : HashFns ℝ ℂ Λ) (s : PrimCell ℝ ℂ Λ) (hs : PrimCell.Reach H s) (h0 : s.hops.toList ≠ []) :
    ∃ fig, (plotModelCell H s).2 = .ok fig ∧ linesOf fig = s.hops.toList.map (bondXY s) ∧ dotsOf fig = [] := by
  exact plotModelCell_spec H s hs.good.1 hs.good.2 h0

/-- **C121 (wave functions, partial).** The picture of a wave function on a primitive cell reached by any history of calls has one dot per orbital, at its
position seen along `z` and with the value of the wave function there, and, if the model is asked for, the lines of `C121_model`.  Missing: cells without
hopping terms drawn with the model, see `C121_wfc_fails`. -/
theorem C121_wfc_partial (H : HashFns ℝ ℂ Λ) (s : PrimCell ℝ ℂ Λ) (hs : PrimCell.Reach H s) (withModel : Bool)
    (h0 : withModel = true → s.hops.toList ≠ []) {wfc : List ℝ} (hw : wfc.length = s.orbs.length) :
    ∃ fig, (plotWfcCell H s true withModel wfc).2 = .ok fig ∧
      (dotsOf fig).length = s.orbs.length ∧
      (∀ i z, wfc[i]? = some z → (dotsOf fig)[i]? = some (seen 0 1 (sitePos s 0 i), z)) ∧
      linesOf fig = if withModel then s.hops.toList.map (bondXY s) else [] := by
  obtain ⟨hwf, hsync⟩ := hs.good
  have hr0 := PrimCell.syncOrb_rest H s false
  have hf0 := PrimCell.syncOrb_fresh hsync false
  have hsync0 : PrimCell.SyncOK H (s.syncOrb H false) := by
    constructor
    · intro _
      rw [hr0.2.2.2.1]
      exact PrimCell.syncOrb_fresh hsync false
    · rw [hr0.2.2.2.2.1, hr0.2.2.2.2.2.1, hr0.2.2.2.2.2.2.1, hr0.2.2.2.2.2.2.2.1]
      exact hsync.hop
  have hwf0 : (s.syncOrb H false).WF := PrimCell.WF_syncOrb H hwf false
  unfold plotWfcCell
  generalize hs1 : s.syncOrb H false = s1 at *
  have hbond : bondXY s1 = bondXY s := by
    funext t
    unfold bondXY sitePos
    rw [hr0.2.1, hr0.2.2.1, hr0.2.2.2.1]
  have hpos : frac2cart s1.lat s1.arrPos s1.origin = frac2cart s.lat (s.orbs.map Orbital.position) s.origin := by
    rw [hr0.2.1, hr0.2.2.1, hf0.1]
  have hplen : (frac2cart s.lat (s.orbs.map Orbital.position) s.origin).length = wfc.length := by
    rw [hw]; simp [frac2cart]
  have hdots : ∀ i z, wfc[i]? = some z →
      (((frac2cart s.lat (s.orbs.map Orbital.position) s.origin).map fun p => (p 0, p 1)).zip wfc)[i]? = some (seen 0 1 (sitePos s 0 i), z) := by
    intro i z hz
    rw [List.getElem?_zip_eq_some]
    refine ⟨?_, hz⟩
    have hi := (List.getElem?_eq_some_iff.1 hz).1
    rw [List.getElem?_map, frac2cart_site s (by omega)]
    rfl
  have hdlen : (((frac2cart s.lat (s.orbs.map Orbital.position) s.origin).map fun p => (p 0, p 1)).zip wfc).length = s.orbs.length := by
    simp [hplen, hw]
  cases withModel with
  | false =>
    refine ⟨[.dots (((frac2cart s.lat (s.orbs.map Orbital.position) s.origin).map fun p => (p 0, p 1)).zip wfc)], ?_, ?_, ?_, ?_⟩
    · simp [hpos, hplen, bind, Except.bind]
    · simpa [dotsOf] using hdlen
    · simpa [dotsOf] using hdots
    · simp [linesOf]
  | true =>
    obtain ⟨m, hm, hml, hmd⟩ := plotModelCell_spec H s1 hwf0 hsync0 (by rw [hr0.2.2.2.2.1]; exact h0 rfl)
    refine ⟨m ++ [.dots (((frac2cart s.lat (s.orbs.map Orbital.position) s.origin).map fun p => (p 0, p 1)).zip wfc)], ?_, ?_, ?_, ?_⟩
    · simp [hpos, hplen, bind, Except.bind, hm]
    · have : dotsOf (m ++ [.dots (((frac2cart s.lat (s.orbs.map Orbital.position) s.origin).map fun p => (p 0, p 1)).zip wfc)]) =
          dotsOf m ++ ((frac2cart s.lat (s.orbs.map Orbital.position) s.origin).map fun p => (p 0, p 1)).zip wfc := by
        simp [dotsOf]
      rw [this, hmd, List.nil_append]
      exact hdlen
    · have : dotsOf (m ++ [.dots (((frac2cart s.lat (s.orbs.map Orbital.position) s.origin).map fun p => (p 0, p 1)).zip wfc)]) =
          dotsOf m ++ ((frac2cart s.lat (s.orbs.map Orbital.position) s.origin).map fun p => (p 0, p 1)).zip wfc := by
        simp [dotsOf]
      rw [this, hmd, List.nil_append]
      exact hdots
    · have : linesOf (m ++ [.dots (((frac2cart s.lat (s.orbs.map Orbital.position) s.origin).map fun p => (p 0, p 1)).zip wfc)]) = linesOf m := by
        simp [linesOf]
      rw [this, hml, hbond, hr0.2.2.2.2.1]
      rfl

/-- **C121 fails** for cells without hopping terms: drawing them along with the data, which is the default, raises an exception. -/
theorem C121_wfc_fails (H : HashFns ℝ ℂ Λ) (s : PrimCell ℝ ℂ Λ) (hs : PrimCell.Reach H s) (h0 : s.hops.toList = []) (wfc : List ℝ) :
    (plotWfcCell H s true true wfc).2 = .error .index := by
  obtain ⟨hwf, hsync⟩ := hs.good
  have hr0 := PrimCell.syncOrb_rest H s false
  have hsync0 : PrimCell.SyncOK H (s.syncOrb H false) := by
    constructor
    · intro _
      rw [hr0.2.2.2.1]
      exact PrimCell.syncOrb_fresh hsync false
    · rw [hr0.2.2.2.2.1, hr0.2.2.2.2.2.1, hr0.2.2.2.2.2.2.1, hr0.2.2.2.2.2.2.2.1]
      exact hsync.hop
  unfold plotWfcCell
  generalize hs1 : s.syncOrb H false = s1 at *
  have hr1 := PrimCell.syncOrb_rest H s1 false
  have hsync1 : PrimCell.SyncOK H (s1.syncOrb H false) := by
    constructor
    · intro _
      rw [hr1.2.2.2.1]
      exact PrimCell.syncOrb_fresh hsync0 false
    · rw [hr1.2.2.2.2.1, hr1.2.2.2.2.2.1, hr1.2.2.2.2.2.2.1, hr1.2.2.2.2.2.2.2.1]
      exact hsync0.hop
  have hf1 := PrimCell.syncHop_fresh hsync1 false
  have : (plotModelCell H s1).2 = .error .index := by
    unfold plotModelCell
    dsimp only
    rw [hf1.1, hr1.2.2.2.2.1, hr0.2.2.2.2.1, h0]
    rfl
  simp [this, bind, Except.bind]

/-- **C121 (vector fields).** With the default colouring, every arrow starts at its data point, has the given direction, and its colour is given by its
length. -/
theorem C121_vector (l : List ((ℝ × ℝ) × (ℝ × ℝ))) :
    (arrowsOf (plotVector true true l)).map (fun a => (a.1, a.2.1)) = l ∧
    ∀ a ∈ arrowsOf (plotVector true true l), ∃ c, a.2.2 = some c ∧ 0 ≤ c ∧ c * c = a.2.1.1 * a.2.1.1 + a.2.1.2 * a.2.1.2 := by
  constructor
  · simp [arrowsOf, plotVector, Function.comp_def]
  · intro a ha
    simp only [arrowsOf, plotVector, Bool.true_eq_false, if_false, List.flatMap_cons, List.flatMap_nil, List.append_nil, List.mem_map, if_true] at ha
    obtain ⟨p, -, rfl⟩ := ha
    refine ⟨_, rfl, Real.sqrt_nonneg _, ?_⟩
    dsimp only
    unfold arrowColor
    rw [Real.mul_self_sqrt (by positivity), sq_abs, sq_abs]
    ring

/-- A concrete case: a path with two legs. -/
example : (genKpath [![0, 0, 0], ![1/2, 0, 0], ![1/2, 1/2, 0]] [10, 20]).isSome ∧ (∀ n ∈ [10, 20], 0 < n) := by
  rw [C39_kpath_total]
  simp

/-- A concrete case: the chain. -/
example : PrimCell.Reach lenHashR chainR ∧ chainR.hops.toList ≠ [] := ⟨chainR_reach, by rw [chainR_hops]; simp⟩

end Verif.Props

import Verif.Model.HopDict

/-!
# Model of `make_antimonene`

`/repo/tbplas/materials/antimonene.py`.  Real arithmetic is exact; `soc_lambda` and `c` are arbitrary reals.
-/

namespace Verif.Materials

open PrimCell

/-- `a`, `z` and `b`, antimonene.py:28-29, 65. -/
noncomputable def anA : ℝ := 0.411975806
@[inherit_doc anA] noncomputable def anZ : ℝ := 0.16455347
@[inherit_doc anA] noncomputable def anB : ℝ := anA / Real.sqrt 3

/-- `t_01` to `t_15`, antimonene.py:32-46. -/
noncomputable def anT : ℕ → ℝ
  | 1 => -2.09
  | 2 => 0.47
  | 3 => 0.18
  | 4 => -0.50
  | 5 => -0.11
  | 6 => 0.21
  | 7 => 0.08
  | 8 => -0.07
  | 9 => 0.07
  | 10 => 0.07
  | 11 => -0.06
  | 12 => -0.06
  | 13 => -0.03
  | 14 => -0.03
  | 15 => -0.04
  | _ => 0

/-- The matrix inside `soc_mat`, antimonene.py:49-62, as pairs of real and imaginary parts. -/
noncomputable def anSocEntry : List (List (ℝ × ℝ)) :=
  [[(0, 0), (0, 0.5854), (0, -0.5854), (0, 0), (0.7020, -0.4053), (0, -0.8107)],
   [(0, -0.5854), (0, 0), (0, 0.5854), (-0.7020, 0.4053), (0, 0), (-0.7020, -0.4053)],
   [(0, 0.5854), (0, -0.5854), (0, 0), (0, 0.8107), (0.7020, 0.4053), (0, 0)],
   [(0, 0), (-0.7020, -0.4053), (0, -0.8107), (0, 0), (0, -0.5854), (0, 0.5854)],
   [(0.7020, 0.4053), (0, 0), (0.7020, -0.4053), (0, 0.5854), (0, 0), (0, -0.5854)],
   [(0, 0.8107), (-0.7020, 0.4053), (0, 0), (0, -0.5854), (0, 0.5854), (0, 0)]]

/-- `soc_mat`, antimonene.py:49-62. -/
noncomputable def anSoc (lam : ℝ) (i j : ℕ) : ℂ :=
  ((0.5 * lam : ℝ) : ℂ) * ⟨((anSocEntry.getD i []).getD j (0, 0)).1, ((anSocEntry.getD i []).getD j (0, 0)).2⟩

/-- The lattice vectors, antimonene.py:66-68. -/
noncomputable def anLat (c : ℝ) : Mat3 ℝ := !![1.5 * anB, -0.5 * anA, 0; 1.5 * anB, 0.5 * anA, 0; 0, 0, c]

/-- The Cartesian coordinates of the orbitals, antimonene.py:71-79. -/
noncomputable def anCoords (soc : Bool) : List (Vec3 ℝ) :=
  List.replicate (if soc then 6 else 3) ![-anB / 2, 0, -anZ / 2] ++ List.replicate (if soc then 6 else 3) ![anB / 2, 0, anZ / 2]

/-- `orbital_labels`, antimonene.py:80-84. -/
def anLabels (soc : Bool) : List String :=
  if soc then ["p11+", "p12+", "p13+", "p11-", "p12-", "p13-", "p21+", "p22+", "p23+", "p21-", "p22-", "p23-"]
  else ["p11", "p12", "p13", "p21", "p22", "p23"]

/-- The assignments `hop_dict[R][i, j] = t_n` in their order, antimonene.py:99-305; the last component is `n`. -/
def anHops : List (Cell × ℕ × ℕ × ℕ) :=
  [((0, -1, 0), 0, 3, 1), ((0, 0, 0), 1, 4, 1), ((-1, 0, 0), 2, 5, 1), ((0, 1, 0), 3, 0, 1), ((0, 0, 0), 4, 1, 1), ((1, 0, 0), 5, 2,
   1), ((0, 0, 0), 0, 3, 2), ((-1, 0, 0), 0, 3, 2), ((-1, 0, 0), 1, 4, 2), ((0, -1, 0), 1, 4, 2), ((0, -1, 0), 2, 5, 2), ((0, 0, 0),
   2, 5, 2), ((0, 0, 0), 3, 0, 2), ((1, 0, 0), 3, 0, 2), ((1, 0, 0), 4, 1, 2), ((0, 1, 0), 4, 1, 2), ((0, 1, 0), 5, 2, 2), ((0, 0,
   0), 5, 2, 2), ((0, 0, 0), 0, 4, 7), ((-1, 0, 0), 0, 5, 7), ((-1, 0, 0), 1, 5, 7), ((0, -1, 0), 1, 3, 7), ((0, -1, 0), 2, 3, 7),
   ((0, 0, 0), 2, 4, 7), ((0, 0, 0), 3, 1, 7), ((1, 0, 0), 3, 2, 7), ((1, 0, 0), 4, 2, 7), ((0, 1, 0), 4, 0, 7), ((0, 1, 0), 5, 0,
   7), ((0, 0, 0), 5, 1, 7), ((-1, 1, 0), 0, 0, 3), ((0, 1, 0), 0, 0, 3), ((1, -1, 0), 0, 0, 3), ((0, -1, 0), 0, 0, 3), ((0, -1, 0),
   1, 1, 3), ((-1, 0, 0), 1, 1, 3), ((0, 1, 0), 1, 1, 3), ((1, 0, 0), 1, 1, 3), ((-1, 0, 0), 2, 2, 3), ((-1, 1, 0), 2, 2, 3), ((1, 0,
   0), 2, 2, 3), ((1, -1, 0), 2, 2, 3), ((-1, 1, 0), 3, 3, 3), ((0, 1, 0), 3, 3, 3), ((1, -1, 0), 3, 3, 3), ((0, -1, 0), 3, 3, 3),
   ((0, -1, 0), 4, 4, 3), ((-1, 0, 0), 4, 4, 3), ((0, 1, 0), 4, 4, 3), ((1, 0, 0), 4, 4, 3), ((-1, 0, 0), 5, 5, 3), ((-1, 1, 0), 5,
   5, 3), ((1, 0, 0), 5, 5, 3), ((1, -1, 0), 5, 5, 3), ((0, 1, 0), 0, 1, 4), ((-1, 1, 0), 0, 2, 4), ((-1, 0, 0), 1, 2, 4), ((0, -1,
   0), 1, 0, 4), ((1, -1, 0), 2, 0, 4), ((1, 0, 0), 2, 1, 4), ((0, -1, 0), 3, 4, 4), ((1, -1, 0), 3, 5, 4), ((1, 0, 0), 4, 5, 4),
   ((0, 1, 0), 4, 3, 4), ((-1, 1, 0), 5, 3, 4), ((-1, 0, 0), 5, 4, 4), ((0, -1, 0), 0, 1, 6), ((1, -1, 0), 0, 2, 6), ((1, 0, 0), 1,
   2, 6), ((0, 1, 0), 1, 0, 6), ((-1, 1, 0), 2, 0, 6), ((-1, 0, 0), 2, 1, 6), ((0, 1, 0), 3, 4, 6), ((-1, 1, 0), 3, 5, 6), ((-1, 0,
   0), 4, 5, 6), ((0, -1, 0), 4, 3, 6), ((1, -1, 0), 5, 3, 6), ((1, 0, 0), 5, 4, 6), ((-1, 0, 0), 0, 0, 11), ((1, 0, 0), 0, 0, 11),
   ((-1, 1, 0), 1, 1, 11), ((1, -1, 0), 1, 1, 11), ((0, -1, 0), 2, 2, 11), ((0, 1, 0), 2, 2, 11), ((-1, 0, 0), 3, 3, 11), ((1, 0, 0),
   3, 3, 11), ((-1, 1, 0), 4, 4, 11), ((1, -1, 0), 4, 4, 11), ((0, -1, 0), 5, 5, 11), ((0, 1, 0), 5, 5, 11), ((-1, 1, 0), 0, 4, 8),
   ((-1, 1, 0), 0, 5, 8), ((-1, -1, 0), 1, 5, 8), ((-1, -1, 0), 1, 3, 8), ((1, -1, 0), 2, 3, 8), ((1, -1, 0), 2, 4, 8), ((1, -1, 0),
   3, 1, 8), ((1, -1, 0), 3, 2, 8), ((1, 1, 0), 4, 2, 8), ((1, 1, 0), 4, 0, 8), ((-1, 1, 0), 5, 0, 8), ((-1, 1, 0), 5, 1, 8), ((1,
   -1, 0), 0, 4, 12), ((-1, -1, 0), 0, 5, 12), ((-1, 1, 0), 1, 5, 12), ((1, -1, 0), 1, 3, 12), ((-1, -1, 0), 2, 3, 12), ((-1, 1, 0),
   2, 4, 12), ((-1, 1, 0), 3, 1, 12), ((1, 1, 0), 3, 2, 12), ((1, -1, 0), 4, 2, 12), ((-1, 1, 0), 4, 0, 12), ((1, 1, 0), 5, 0, 12),
   ((1, -1, 0), 5, 1, 12), ((1, -2, 0), 0, 3, 5), ((0, -2, 0), 0, 3, 5), ((0, 1, 0), 1, 4, 5), ((1, 0, 0), 1, 4, 5), ((-2, 1, 0), 2,
   5, 5), ((-2, 0, 0), 2, 5, 5), ((-1, 2, 0), 3, 0, 5), ((0, 2, 0), 3, 0, 5), ((-1, 0, 0), 4, 1, 5), ((0, -1, 0), 4, 1, 5), ((2, -1,
   0), 5, 2, 5), ((2, 0, 0), 5, 2, 5), ((-2, 1, 0), 0, 3, 9), ((0, 1, 0), 0, 3, 9), ((0, -2, 0), 1, 4, 9), ((-2, 0, 0), 1, 4, 9),
   ((1, 0, 0), 2, 5, 9), ((1, -2, 0), 2, 5, 9), ((2, -1, 0), 3, 0, 9), ((0, -1, 0), 3, 0, 9), ((0, 2, 0), 4, 1, 9), ((2, 0, 0), 4, 1,
   9), ((-1, 2, 0), 5, 2, 9), ((-1, 0, 0), 5, 2, 9), ((0, 1, 0), 0, 4, 10), ((-2, 1, 0), 0, 5, 10), ((-2, 0, 0), 1, 5, 10), ((0, -2,
   0), 1, 3, 10), ((1, -2, 0), 2, 3, 10), ((1, 0, 0), 2, 4, 10), ((0, -1, 0), 3, 1, 10), ((2, -1, 0), 3, 2, 10), ((2, 0, 0), 4, 2,
   10), ((0, 2, 0), 4, 0, 10), ((-1, 2, 0), 5, 0, 10), ((-1, 0, 0), 5, 1, 10), ((1, 0, 0), 0, 3, 13), ((-2, 0, 0), 0, 3, 13), ((-2,
   1, 0), 1, 4, 13), ((1, -2, 0), 1, 4, 13), ((0, -2, 0), 2, 5, 13), ((0, 1, 0), 2, 5, 13), ((-1, 0, 0), 3, 0, 13), ((2, 0, 0), 3, 0,
   13), ((-1, 2, 0), 4, 1, 13), ((2, -1, 0), 4, 1, 13), ((0, 2, 0), 5, 2, 13), ((0, -1, 0), 5, 2, 13), ((0, -2, 0), 0, 1, 14), ((2,
   -2, 0), 0, 2, 14), ((2, 0, 0), 1, 2, 14), ((0, 2, 0), 1, 0, 14), ((-2, 2, 0), 2, 0, 14), ((-2, 0, 0), 2, 1, 14), ((0, 2, 0), 3, 4,
   14), ((-2, 2, 0), 3, 5, 14), ((-2, 0, 0), 4, 5, 14), ((0, -2, 0), 4, 3, 14), ((2, -2, 0), 5, 3, 14), ((2, 0, 0), 5, 4, 14), ((0,
   -2, 0), 1, 0, 15), ((2, -2, 0), 2, 0, 15), ((2, 0, 0), 2, 1, 15), ((0, 2, 0), 0, 1, 15), ((-2, 2, 0), 0, 2, 15), ((-2, 0, 0), 1,
   2, 15), ((0, 2, 0), 4, 3, 15), ((-2, 2, 0), 5, 3, 15), ((-2, 0, 0), 5, 4, 15), ((0, -2, 0), 3, 4, 15), ((2, -2, 0), 3, 5, 15),
   ((2, 0, 0), 4, 5, 15)]

/-- `M[r:r+3, c:c+3] = B`. -/
def putSub (r c : ℕ) (B : ℕ → ℕ → ℂ) (M : ℕ → ℕ → ℂ) : ℕ → ℕ → ℂ := fun i j =>
  if r ≤ i ∧ i < r + 3 ∧ c ≤ j ∧ j < c + 3 then B (i - r) (j - c) else M i j

/-- `hop[r:r+3, c:c+3]`. -/
def sub (r c : ℕ) (M : ℕ → ℕ → ℂ) : ℕ → ℕ → ℂ := fun i j => M (r + i) (c + j)

/-- `new_hop`, antimonene.py:311-323. -/
def anExpand (hop : ℕ → ℕ → ℂ) : ℕ → ℕ → ℂ :=
  putSub 9 9 (sub 3 3 hop) <| putSub 6 6 (sub 3 3 hop) <| putSub 9 3 (sub 3 0 hop) <| putSub 6 0 (sub 3 0 hop) <|
  putSub 3 9 (sub 0 3 hop) <| putSub 0 6 (sub 0 3 hop) <| putSub 3 3 (sub 0 0 hop) <| putSub 0 0 (sub 0 0 hop) <| fun _ _ => 0

/-- `np.kron(np.eye(2), soc_mat)`, antimonene.py:325. -/
noncomputable def anKron (lam : ℝ) (i j : ℕ) : ℂ := (if i / 6 = j / 6 then 1 else 0) * anSoc lam (i % 6) (j % 6)

/-- A series of assignments `hop_dict[R][i, j] = v`, which stops at the first exception. -/
def seqEntries (d : HopDict) : List (Cell × ℕ × ℕ × ℂ) → HopDict × Except HDErr Unit
  | [] => (d, .ok ())
  | q :: l =>
    match d.setEntry [q.1.1, q.1.2.1, q.1.2.2] q.2.1 q.2.2.1 q.2.2.2 with
    | (d', .ok ()) => seqEntries d' l
    | (d', .error e) => (d', .error e)

/-- A series of assignments `hop_dict[R] = M`, which stops at the first exception. -/
noncomputable def seqItems (d : HopDict) : List (Cell × HopArg) → HopDict × Except HDErr Unit
  | [] => (d, .ok ())
  | q :: l =>
    match d.setItem [q.1.1, q.1.2.1, q.1.2.2] q.2 with
    | (d', .ok ()) => seqItems d' l
    | (d', .error e) => (d', .error e)

/-- Lines 309-325: `num_orb` is doubled, every matrix is replaced by the expanded one, then `hop_dict[(0, 0, 0)] += ...`.  In the loop
every matrix is read before it is replaced, and no key is added. -/
noncomputable def anWithSoc (lam : ℝ) (d : HopDict) : HopDict × Except HDErr Unit :=
  match seqItems (d.setNum 12) (d.mats.map fun p => (p.1, ⟨12, 12, anExpand p.2.val⟩)) with
  | (d', .error e) => (d', .error e)
  | (d', .ok ()) =>
    let g := d'.getItem (0, 0, 0)
    g.1.setItem [0, 0, 0] ⟨g.2.dim, g.2.dim, fun i j => g.2.val i j + anKron lam i j⟩

/-- The dictionary of `make_antimonene`, antimonene.py:93-325. -/
noncomputable def anDict (soc : Bool) (lam : ℝ) : HopDict × Except HDErr Unit :=
  match seqEntries (HopDict.init 6) (anHops.map fun q => (q.1, q.2.1, q.2.2.1, (anT q.2.2.2 : ℂ))) with
  | (d, .error e) => (d, .error e)
  | (d, .ok ()) => if soc then anWithSoc lam d else (d, .ok ())

/-- `make_antimonene`, antimonene.py:12-329. -/
noncomputable def antimonene (H : HashFns ℝ ℂ String) (soc : Bool) (lam c : ℝ) : Except HDErr (PrimCell ℝ ℂ String) :=
  match cart2frac (anLat c) (anCoords soc) 0 with
  | none => .error (.cell .linAlg)
  | some pos =>
    match runOk H (init H (anLat c) 0) ((pos.zip (anLabels soc)).map fun q => .addOrbital [q.1 0, q.1 1, q.1 2] 0 q.2) with
    | .error e => .error (.cell e)
    | .ok s =>
      match anDict soc lam with
      | (_, .error e) => .error e
      | (d, .ok ()) =>
        match addHopDict s d with
        | (s', _, .ok ()) => .ok s'
        | (_, _, .error e) => .error e

end Verif.Materials

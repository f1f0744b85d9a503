import Verif.Model.Antimonene

/-!
# Model of `make_tmdc`

`/repo/tbplas/materials/xs2.py:22-417`.  Real arithmetic is exact.
-/

namespace Verif.Materials

open PrimCell

/-- What `make_tmdc` raises: `NotImplementedError` for an unknown material, or an exception of the dictionary. -/
inductive TmdcErr
  | notImplemented
  | dict (e : HDErr)

/-- `STRUCT_CONSTS`, xs2.py:22-27. -/
noncomputable def tmStruct : PyDict String (ℝ × ℝ × ℝ) :=
  [("MoS2", 0.316, 0.317, 1.229 / 2),
   ("MoSe2", 0.329, 0.333, 1.290 / 2),
   ("WS2", 0.315, 0.314, 1.232 / 2),
   ("WSe2", 0.328, 0.334, 1.296 / 2)]

/-- `HOP_CONSTS`, xs2.py:29-66. -/
noncomputable def tmHop : PyDict String (List ℝ) :=
  [("MoS2", [1.0688, 1.0688, -0.7755, -1.2902, -1.2902, -0.1380, 0.0874, 0.0874, -2.8949, -1.9065, -1.9065, -0.2069,
   0.0323, -0.1739, 0.8651, -0.1872, -0.2979, 0.2747, -0.5581, -0.1916, 0.9122, 0.0059, -0.0679, 0.4096, 0.0075,
   -0.2562, -0.0995, -0.0705, -0.1145, -0.2487, 0.1063, -0.0385, -0.7883, -1.3790, 2.1584, -0.8836, -0.9402,
   1.4114, -0.9535, 0.6517, -0.0686, -0.1498, -0.2205, -0.2451]),
   ("MoSe2", [0.7819, 0.7819, -0.6567, -1.1726, -1.1726, -0.2297, 0.0149, 0.0149, -2.9015, -1.7806, -1.7806, -0.1460,
   0.0177, -0.2112, 0.9638, -0.1724, -0.2636, 0.2505, -0.4734, -0.2166, 0.9911, -0.0036, -0.0735, 0.3520,
   0.0047, -0.1912, -0.0755, -0.0680, -0.0960, -0.2012, 0.1216, -0.0394, -0.6946, -1.3258, 1.9415, -0.7720,
   -0.8738, 1.2677, -0.8578, 0.5545, -0.0691, -0.1553, -0.2227, -0.2154]),
   ("WS2", [1.3754, 1.3754, -1.1278, -1.5534, -1.5534, -0.0393, 0.1984, 0.1984, -3.3706, -2.3461, -2.3461, -0.2011,
   0.0263, -0.1749, 0.8726, -0.2187, -0.3716, 0.3537, -0.6892, -0.2112, 0.9673, 0.0143, -0.0818, 0.4896,
   -0.0315, -0.3106, -0.1105, -0.0989, -0.1467, -0.3030, 0.1645, -0.1018, -0.8855, -1.4376, 2.3121, -1.0130,
   -0.9878, 1.5629, -0.9491, 0.6718, -0.0659, -0.1533, -0.2618, -0.2736]),
   ("WSe2", [1.0349, 1.0349, -0.9573, -1.3937, -1.3937, -0.1667, 0.0984, 0.0984, -3.3642, -2.1820, -2.1820, -0.1395,
   0.0129, -0.2171, 0.9763, -0.1985, -0.3330, 0.3190, -0.5837, -0.2399, 1.0470, 0.0029, -0.0912, 0.4233,
   -0.0377, -0.2321, -0.0797, -0.0920, -0.1250, -0.2456, 0.1857, -0.1027, -0.7744, -1.4014, 2.0858, -0.8998,
   -0.9044, 1.4030, -0.8548, 0.5711, -0.0676, -0.1608, -0.2618, -0.2424])]

/-- `vectors`, xs2.py:93-95. -/
noncomputable def tmLat (a c : ℝ) : Mat3 ℝ := !![a / 2, a * Real.sqrt 3 / 2, 0; -a / 2, a * Real.sqrt 3 / 2, 0; 0, 0, c]

/-- `orbital_coords`, xs2.py:96-102. -/
noncomputable def tmCoords (a dxx : ℝ) : List (Vec3 ℝ) :=
  List.replicate 5 ![0, a / Real.sqrt 3, dxx / 2] ++ List.replicate 3 ![0, 0, dxx] ++ List.replicate 3 ![0, 0, 0]

/-- `gen_lattice`, xs2.py:69-103, with the default `c = 1.0`. -/
noncomputable def tmLattice (material : String) : Except TmdcErr (Mat3 ℝ × List (Vec3 ℝ)) :=
  match PyDict.get? tmStruct material with
  | none => .error .notImplemented
  | some (a, dxx, _) => .ok (tmLat a 1.0, tmCoords a dxx)

/-- A matrix of zeros after assignments `M[i, j] = v` in their order. -/
def matOf {α : Type*} [Zero α] (l : List ((ℕ × ℕ) × α)) (i j : ℕ) : α :=
  match l.reverse.find? (fun q => q.1 = (i, j)) with
  | some q => q.2
  | none => 0

/-- `for i in l1: for j in l2: f`. -/
def loop2 {α : Type*} (l1 l2 : List ℕ) (f : ℕ → ℕ → List α) : List α := l1.flatMap fun i => l2.flatMap fun j => f i j

/-- `hop_mat1`, `hop_mat5` and `hop_mat6`, xs2.py:134-142: the keys take the items of `hop_data[11:]` in turn.  `t n` is
`hop_data[n]`. -/
noncomputable def tmH1 (t : ℕ → ℝ) : ℕ → ℕ → ℝ :=
  matOf [((0, 0), t 11), ((1, 1), t 12), ((2, 2), t 13), ((3, 3), t 14), ((4, 4), t 15), ((5, 5), t 16), ((6, 6), t 17), ((7, 7), t 18),
    ((8, 8), t 19), ((9, 9), t 20), ((10, 10), t 21), ((2, 4), t 22), ((5, 7), t 23), ((8, 10), t 24), ((0, 1), t 25), ((2, 3), t 26),
    ((3, 4), t 27), ((5, 6), t 28), ((6, 7), t 29), ((8, 9), t 30), ((9, 10), t 31)]
@[inherit_doc tmH1] noncomputable def tmH5 (t : ℕ → ℝ) : ℕ → ℕ → ℝ :=
  matOf [((3, 0), t 32), ((2, 1), t 33), ((4, 1), t 34), ((8, 5), t 35), ((10, 5), t 36), ((9, 6), t 37), ((8, 7), t 38), ((10, 7), t 39)]
@[inherit_doc tmH1] noncomputable def tmH6 (t : ℕ → ℝ) : ℕ → ℕ → ℝ :=
  matOf [((8, 5), t 40), ((10, 5), t 41), ((8, 7), t 42), ((10, 7), t 43)]

/-- `list0`, `list00`, `list1`, `list2`, `list3` and `list4`, xs2.py:145-146, 209-212. -/
def tmList0 : List (ℕ × ℕ × ℕ) := [(3, 4, 2), (6, 7, 5), (9, 10, 8)]
@[inherit_doc tmList0] def tmList00 : List (ℕ × ℕ × ℕ × ℕ × ℕ) := [(0, 1, 3, 4, 2), (6, 7, 9, 10, 8)]
@[inherit_doc tmList0] def tmList1 : List ℕ := [1, 2, 6, 7, 8]
@[inherit_doc tmList0] def tmList2 : List ℕ := [3, 4, 5, 9, 10, 11]
@[inherit_doc tmList0] def tmList3 : List (ℕ × ℕ) := [(3, 1), (5, 1), (4, 2), (10, 6), (9, 7), (11, 7), (10, 8)]
@[inherit_doc tmList0] def tmList4 : List (ℕ × ℕ) := [(4, 1), (3, 2), (5, 2), (9, 6), (11, 6), (10, 7), (9, 8), (11, 8)]

/-- `hop_mat2`, xs2.py:148-172.  The loop also fills `hop_mat3`; both read only `hop_mat1`. -/
noncomputable def tmH2 (t : ℕ → ℝ) : ℕ → ℕ → ℝ :=
  matOf ((tmList0.flatMap fun (a, b, c) =>
    [((a, a), tmH1 t a a / 4 + 3 * tmH1 t b b / 4),
     ((b, b), 3 * tmH1 t a a / 4 + tmH1 t b b / 4),
     ((c, c), tmH1 t c c),
     ((c, b), Real.sqrt 3 * tmH1 t c a / 2 - tmH1 t c b / 2),
     ((a, b), Real.sqrt 3 * (tmH1 t a a - tmH1 t b b) / 4 - tmH1 t a b),
     ((c, a), tmH1 t c a / 2 + Real.sqrt 3 * tmH1 t c b / 2)]) ++
    [((0, 0), tmH1 t 0 0 / 4 + 3 * tmH1 t 1 1 / 4),
     ((1, 1), 3 * tmH1 t 0 0 / 4 + tmH1 t 1 1 / 4),
     ((0, 1), Real.sqrt 3 * (tmH1 t 0 0 - tmH1 t 1 1) / 4 - tmH1 t 0 1)])

/-- `hop_mat3`, xs2.py:148-168, 173-174. -/
noncomputable def tmH3 (t : ℕ → ℝ) : ℕ → ℕ → ℝ :=
  matOf ((tmList0.flatMap fun (a, b, c) =>
    [((c, b), -Real.sqrt 3 * tmH1 t c a / 2 - tmH1 t c b / 2),
     ((a, b), -Real.sqrt 3 * (tmH1 t a a - tmH1 t b b) / 4 - tmH1 t a b),
     ((c, a), tmH1 t c a / 2 - Real.sqrt 3 * tmH1 t c b / 2)]) ++
    [((0, 1), -Real.sqrt 3 * (tmH1 t 0 0 - tmH1 t 1 1) / 4 - tmH1 t 0 1)])

/-- `hop_mat4`, xs2.py:176-189.  `hop_mat4[m2[2], m2[1]] = hop_mat4[m2[3], m2[0]]` reads the element set just before. -/
noncomputable def tmH4 (t : ℕ → ℝ) : ℕ → ℕ → ℝ :=
  matOf ((tmList00.flatMap fun (m0, m1, m2, m3, m4) =>
    [((m2, m0), tmH5 t m2 m0 / 4 + 3 * tmH5 t m3 m1 / 4),
     ((m3, m1), 3 * tmH5 t m2 m0 / 4 + tmH5 t m3 m1 / 4),
     ((m3, m0), -Real.sqrt 3 * tmH5 t m2 m0 / 4 + Real.sqrt 3 * tmH5 t m3 m1 / 4),
     ((m2, m1), -Real.sqrt 3 * tmH5 t m2 m0 / 4 + Real.sqrt 3 * tmH5 t m3 m1 / 4),
     ((m4, m0), -Real.sqrt 3 * tmH5 t m4 m1 / 2),
     ((m4, m1), -tmH5 t m4 m1 / 2)]) ++
    [((8, 5), tmH5 t 8 5),
     ((9, 5), -Real.sqrt 3 * tmH5 t 10 5 / 2),
     ((10, 5), -tmH5 t 10 5 / 2)])

/-- `a_000` before the transformation, xs2.py:216-228. -/
noncomputable def tmA000 (t : ℕ → ℝ) : ℕ → ℕ → ℝ :=
  matOf ((tmList1.map fun i => ((i - 1, i - 1), t (i - 1))) ++
    (loop2 tmList1 tmList2 fun i j => if (j, i) ∈ tmList4 then [((i - 1, j - 1), tmH5 t (j - 1) (i - 1))] else []) ++
    (tmList2.map fun i => ((i - 1, i - 1), t (i - 1))) ++
    loop2 tmList2 tmList1 fun i j => if (i, j) ∈ tmList4 then [((i - 1, j - 1), tmH5 t (i - 1) (j - 1))] else [])

/-- `a_100` before the transformation, xs2.py:237-263. -/
noncomputable def tmA100 (t : ℕ → ℝ) : ℕ → ℕ → ℝ :=
  matOf ((loop2 tmList1 tmList1 fun i j =>
      if i = j then [((i - 1, i - 1), tmH2 t (i - 1) (i - 1))]
      else if (i, j) = (6, 8) then [((i - 1, j - 1), tmH3 t (i - 1) (j - 1)), ((j - 1, i - 1), tmH2 t (i - 1) (j - 1))]
      else if (i, j) ∈ [(1, 2), (6, 7), (7, 8)] then [((i - 1, j - 1), -tmH3 t (i - 1) (j - 1)), ((j - 1, i - 1), tmH2 t (i - 1) (j - 1))]
      else []) ++
    (loop2 tmList1 tmList2 fun i j =>
      if (j, i) ∈ tmList3 then [((i - 1, j - 1), tmH4 t (j - 1) (i - 1))]
      else if (j, i) ∈ tmList4 then [((i - 1, j - 1), tmH4 t (j - 1) (i - 1))]
      else []) ++
    loop2 tmList2 tmList2 fun i j =>
      if i = j then [((i - 1, j - 1), tmH2 t (i - 1) (j - 1))]
      else if (i, j) ∈ [(3, 5), (9, 11)] then [((i - 1, j - 1), tmH3 t (i - 1) (j - 1)), ((j - 1, i - 1), tmH2 t (i - 1) (j - 1))]
      else if (i, j) ∈ [(3, 4), (4, 5), (9, 10), (10, 11)] then
        [((i - 1, j - 1), -tmH3 t (i - 1) (j - 1)), ((j - 1, i - 1), tmH2 t (i - 1) (j - 1))]
      else [])

/-- `a_110` before the transformation, xs2.py:268-278. -/
noncomputable def tmA110 (t : ℕ → ℝ) : ℕ → ℕ → ℝ :=
  matOf (loop2 tmList1 tmList2 fun i j =>
    if (j, i) = (9, 6) then [((i - 1, j - 1), tmH6 t (j - 1) (i - 1))]
    else if (j, i) = (11, 6) then [((i - 1, j - 1), tmH6 t (j - 1) (i - 1))]
    else if (j, i) = (9, 8) then [((i - 1, j - 1), tmH6 t (j - 1) (i - 1))]
    else if (j, i) = (11, 8) then [((i - 1, j - 1), tmH6 t (j - 1) (i - 1))]
    else [])

/-- `a_010` before the transformation, xs2.py:283-309. -/
noncomputable def tmA010 (t : ℕ → ℝ) : ℕ → ℕ → ℝ :=
  matOf ((loop2 tmList1 tmList1 fun i j =>
      if i = j then [((i - 1, j - 1), tmH2 t (i - 1) (j - 1))]
      else if (i, j) = (6, 8) then [((i - 1, j - 1), tmH3 t (i - 1) (j - 1)), ((j - 1, i - 1), tmH2 t (i - 1) (j - 1))]
      else if (i, j) ∈ [(1, 2), (6, 7), (7, 8)] then [((i - 1, j - 1), tmH3 t (i - 1) (j - 1)), ((j - 1, i - 1), -tmH2 t (i - 1) (j - 1))]
      else []) ++
    (loop2 tmList1 tmList2 fun i j =>
      if (j, i) ∈ tmList3 then [((i - 1, j - 1), -tmH4 t (j - 1) (i - 1))]
      else if (j, i) ∈ tmList4 then [((i - 1, j - 1), tmH4 t (j - 1) (i - 1))]
      else []) ++
    loop2 tmList2 tmList2 fun i j =>
      if i = j then [((i - 1, j - 1), tmH2 t (i - 1) (j - 1))]
      else if (i, j) ∈ [(3, 5), (9, 11)] then [((i - 1, j - 1), tmH3 t (i - 1) (j - 1)), ((j - 1, i - 1), tmH2 t (i - 1) (j - 1))]
      else if (i, j) ∈ [(3, 4), (4, 5), (9, 10), (10, 11)] then
        [((i - 1, j - 1), tmH3 t (i - 1) (j - 1)), ((j - 1, i - 1), -tmH2 t (i - 1) (j - 1))]
      else [])

/-- `a__110` before the transformation, xs2.py:314-364. -/
noncomputable def tmAm110 (t : ℕ → ℝ) : ℕ → ℕ → ℝ :=
  matOf ((loop2 tmList1 tmList1 fun i j =>
      if i = j then [((i - 1, i - 1), tmH1 t (i - 1) (i - 1))]
      else if (i, j) = (6, 8) then [((i - 1, j - 1), tmH1 t (i - 1) (j - 1)), ((j - 1, i - 1), tmH1 t (i - 1) (j - 1))]
      else if (i, j) = (1, 2) ∨ (i, j) = (6, 7) ∨ (i, j) = (7, 8) then
        [((i - 1, j - 1), tmH1 t (i - 1) (j - 1)), ((j - 1, i - 1), -tmH1 t (i - 1) (j - 1))]
      else []) ++
    (loop2 tmList1 tmList2 fun i j =>
      if (j, i) = (9, 6) then [((i - 1, j - 1), tmH6 t (j - 1) (i - 1))]
      else if (j, i) = (11, 6) then
        [((i - 1, j - 1), -0.5 * tmH6 t (j - 1) (i - 1)), ((5, 9), -Real.sqrt 3 * tmH6 t (j - 1) (i - 1) / 2)]
      else if (j, i) = (9, 8) then
        [((i - 1, j - 1), -0.5 * tmH6 t (j - 1) (i - 1)), ((6, 8), -Real.sqrt 3 * tmH6 t (j - 1) (i - 1) / 2)]
      else if (j, i) = (11, 8) then
        [((6, 9), 3 * tmH6 t (j - 1) (i - 1) / 4), ((6, 10), Real.sqrt 3 * tmH6 t (j - 1) (i - 1) / 4),
         ((7, 9), Real.sqrt 3 * tmH6 t (j - 1) (i - 1) / 4), ((7, 10), tmH6 t (j - 1) (i - 1) / 4)]
      else []) ++
    (loop2 tmList2 tmList1 fun i j =>
      if (i, j) = (9, 6) then [((i - 1, j - 1), tmH6 t (i - 1) (j - 1))]
      else if (i, j) = (11, 6) then
        [((i - 1, j - 1), -0.5 * tmH6 t (i - 1) (j - 1)), ((9, 5), Real.sqrt 3 * tmH6 t (i - 1) (j - 1) / 2)]
      else if (i, j) = (9, 8) then
        [((i - 1, j - 1), -0.5 * tmH6 t (i - 1) (j - 1)), ((8, 6), Real.sqrt 3 * tmH6 t (i - 1) (j - 1) / 2)]
      else if (i, j) = (11, 8) then
        [((9, 6), 3 * tmH6 t (i - 1) (j - 1) / 4), ((10, 6), -Real.sqrt 3 * tmH6 t (i - 1) (j - 1) / 4),
         ((9, 7), -Real.sqrt 3 * tmH6 t (i - 1) (j - 1) / 4), ((10, 7), tmH6 t (i - 1) (j - 1) / 4)]
      else []) ++
    loop2 tmList2 tmList2 fun i j =>
      if i = j then [((i - 1, i - 1), tmH1 t (i - 1) (i - 1))]
      else if (i, j) ∈ [(3, 5), (9, 11)] then [((i - 1, j - 1), tmH1 t (i - 1) (j - 1)), ((j - 1, i - 1), tmH1 t (i - 1) (j - 1))]
      else if (i, j) ∈ [(3, 4), (4, 5), (9, 10), (10, 11)] then
        [((i - 1, j - 1), tmH1 t (i - 1) (j - 1)), ((j - 1, i - 1), -tmH1 t (i - 1) (j - 1))]
      else [])

/-- The array inside `trans_mat`, xs2.py:194-205: the row and column of every non-zero element.  The elements of the first list are 1,
of the second `inv_sqrt_2`, of the third `-inv_sqrt_2`. -/
def tmOnes : List (ℕ × ℕ) := [(0, 3), (1, 4), (5, 0), (6, 1), (7, 2)]
@[inherit_doc tmOnes] def tmPlus : List (ℕ × ℕ) := [(2, 7), (2, 10), (3, 5), (4, 6), (8, 7), (9, 5), (9, 8), (10, 6), (10, 9)]
@[inherit_doc tmOnes] def tmMinus : List (ℕ × ℕ) := [(3, 8), (4, 9), (8, 10)]

/-- `trans_mat`, xs2.py:119, 194-205: the transpose of the array. -/
noncomputable def tmTrans (i l : ℕ) : ℝ :=
  if (l, i) ∈ tmOnes then 1 else if (l, i) ∈ tmPlus then 1 / Real.sqrt 2 else if (l, i) ∈ tmMinus then -(1 / Real.sqrt 2) else 0

/-- `np.dot(np.dot(trans_mat, a), inverse_trans_mat)`, xs2.py:206, 229, 264, 279, 310, 365. -/
noncomputable def tmConj (a : ℕ → ℕ → ℝ) (i j : ℕ) : ℝ :=
  ∑ m ∈ Finset.range 11, (∑ l ∈ Finset.range 11, tmTrans i l * a l m) * tmTrans j m

/-- `on_site`, xs2.py:230-232. -/
noncomputable def tmOnSite (t : ℕ → ℝ) (i : ℕ) : ℝ := tmConj (tmA000 t) i i

/-- The matrices of `hop_dict` in the order of the assignments, xs2.py:229-234, 264-265, 279-280, 310-311, 365-366; the diagonal of the
first is set to zero. -/
noncomputable def tmItems (t : ℕ → ℝ) : PyDict Cell HopArg :=
  [((0, 0, 0), ⟨11, 11, fun i j => if i = j then 0 else (tmConj (tmA000 t) i j : ℂ)⟩),
   ((1, 0, 0), ⟨11, 11, fun i j => (tmConj (tmA100 t) i j : ℂ)⟩),
   ((1, 1, 0), ⟨11, 11, fun i j => (tmConj (tmA110 t) i j : ℂ)⟩),
   ((0, 1, 0), ⟨11, 11, fun i j => (tmConj (tmA010 t) i j : ℂ)⟩),
   ((-1, 1, 0), ⟨11, 11, fun i j => (tmConj (tmAm110 t) i j : ℂ)⟩)]

/-- `gen_hop_dict`, xs2.py:106-367. -/
noncomputable def tmDict (material : String) : Except TmdcErr (HopDict × (ℕ → ℝ)) :=
  match PyDict.get? tmHop material with
  | none => .error .notImplemented
  | some data =>
    match seqItems (HopDict.init 11) (tmItems fun n => data.getD n 0) with
    | (_, .error e) => .error (.dict e)
    | (d, .ok ()) => .ok (d, tmOnSite fun n => data.getD n 0)

/-- `gen_orb_labels`, xs2.py:370-397. -/
def tmLabels (material : String) : Except TmdcErr (List String) :=
  match PyDict.get? [("MoS2", ("Mo", "SA", "SB")), ("MoSe2", ("Mo", "SeA", "SeB")), ("WS2", ("W", "SA", "SB")),
      ("WSe2", ("W", "SeA", "SeB"))] material with
  | none => .error .notImplemented
  | some (m, a, b) => .ok ((["dz2", "dxy", "dx2-y2", "dxz", "dyz"].map fun o => m ++ "_" ++ o) ++
      (["px", "py", "pz"].map fun o => a ++ "_" ++ o) ++ ["px", "py", "pz"].map fun o => b ++ "_" ++ o)

/-- `make_tmdc`, xs2.py:400-417.  There are eleven coordinates, energies and labels, so no index is out of range. -/
noncomputable def tmdc (H : HashFns ℝ ℂ String) (material : String) : Except TmdcErr (PrimCell ℝ ℂ String) :=
  match tmLattice material with
  | .error e => .error e
  | .ok (lat, coords) =>
    match tmDict material with
    | .error e => .error e
    | .ok (d, onSite) =>
      match cart2frac lat coords 0 with
      | none => .error (.dict (.cell .linAlg))
      | some pos =>
        match tmLabels material with
        | .error e => .error e
        | .ok labels =>
          match runOk H (init H lat 0) (pos.zipIdx.map fun q =>
              .addOrbital [q.1 0, q.1 1, q.1 2] (onSite q.2) (labels.getD q.2 "")) with
          | .error e => .error (.dict (.cell e))
          | .ok s =>
            match addHopDict s d with
            | (s', _, .ok ()) => .ok s'
            | (_, _, .error e) => .error (.dict e)

end Verif.Materials

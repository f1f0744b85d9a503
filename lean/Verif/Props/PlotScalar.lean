import Verif.Proof.Plot

/-!
# C116: pictures of scalar fields
-/

namespace Verif.Props

open Plot PlotSpec

theorem linspace_get (a b : ℝ) (n i : ℕ) (h : i < n) : (linspace a b n)[i]? = some (gridAt a b n i) := by
  unfold linspace gridAt
  rw [List.getElem?_map, List.getElem?_range h]
  simp only [Option.map_some, Option.some.injEq]
  ring

/-- Element `k` of the points in the order of `ravel`. -/
theorem flat_get {A B C : Type*} (ys : List B) (xs : List A) (f : A → B → C) (i j : ℕ) (hi : i < ys.length) (hj : j < xs.length) :
    (ys.flatMap fun b => xs.map fun a => f a b)[i * xs.length + j]? = some (f xs[j] ys[i]) := by
  induction ys generalizing i with
  | nil => simp at hi
  | cons y ys ih =>
    rw [List.flatMap_cons]
    cases i with
    | zero => simp [List.getElem?_append, hj]
    | succ i =>
      rw [List.getElem?_append_right (by rw [List.length_map]; nlinarith)]
      have : (i + 1) * xs.length + j - (xs.map fun a => f a y).length = i * xs.length + j := by
        rw [List.length_map, Nat.add_mul, one_mul]
        omega
      rw [this, ih i (by simpa using hi)]
      rfl

theorem reshape_get {A : Type*} (l : List A) (n m r c : ℕ) (hr : r < n) (hc : c < m) :
    ((reshape2 l n m)[r]?.bind fun row => row[c]?) = l[r * m + c]? := by
  unfold reshape2
  rw [List.getElem?_map, List.getElem?_range hr]
  simp [hc]

/-- The pixel in row `r` and column `c` shows the field at the point of the grid with number `r ny + c`, counted along `x` first. -/
theorem plotScalar_pixel (f : ℝ → ℝ → ℝ) {x y : List ℝ} {x0 x1 y0 y1 : ℝ} (hx0 : x.min? = some x0) (hx1 : x.max? = some x1) (hy0 : y.min? = some y0)
    (hy1 : y.max? = some y1) (nx ny : ℕ) : ∃ img, plotScalar f x y nx ny = some img ∧ (img.xMin = x0 ∧ img.xMax = x1 ∧ img.yMin = y0 ∧ img.yMax = y1) ∧
      (img.rows.length = nx) ∧ ∀ r c i j, r < nx → c < ny → i < ny → j < nx → r * ny + c = i * nx + j →
        pixel img r c = some (f (gridAt x0 x1 nx j) (gridAt y0 y1 ny i)) := by
  unfold plotScalar
  rw [hx0, hx1, hy0, hy1]
  refine ⟨_, rfl, ⟨rfl, rfl, rfl, rfl⟩, by simp [reshape2], ?_⟩
  intro r c i j hr hc hi hj he
  unfold pixel
  rw [reshape_get _ _ _ _ _ hr hc, List.getElem?_map, he]
  have hlx : (linspace x0 x1 nx).length = nx := by simp [linspace]
  have hly : (linspace y0 y1 ny).length = ny := by simp [linspace]
  have := flat_get (linspace y0 y1 ny) (linspace x0 x1 nx) (fun a b => (a, b)) i j (by rw [hly]; exact hi) (by rw [hlx]; exact hj)
  have e2 : i * nx + j = i * (linspace x0 x1 nx).length + j := by rw [hlx]
  rw [e2, this]
  have h1 := linspace_get x0 x1 nx j hj
  have h2 := linspace_get y0 y1 ny i hi
  rw [List.getElem?_eq_getElem (by rw [hlx]; exact hj)] at h1
  rw [List.getElem?_eq_getElem (by rw [hly]; exact hi)] at h2
  simp only [Option.some.injEq] at h1 h2
  simp [h1, h2]

theorem gridAt_near {lo hi : ℝ} (h : lo ≤ hi) {n i : ℕ} (hn : 2 ≤ n) (hin : i < n) : |gridAt lo hi n i - pixelAt lo hi n i| ≤ (hi - lo) / (2 * n) := by
  have hn' : (2 : ℝ) ≤ n := by exact_mod_cast hn
  have hi' : (i : ℝ) + 1 ≤ n := by exact_mod_cast hin
  have hi0 : (0 : ℝ) ≤ i := Nat.cast_nonneg i
  have e : gridAt lo hi n i - pixelAt lo hi n i = ((i : ℝ) - (n - 1) / 2) / (n * (n - 1)) * (hi - lo) := by
    unfold gridAt pixelAt
    have h1 : (n : ℝ) - 1 ≠ 0 := by linarith
    have h2 : (n : ℝ) ≠ 0 := by linarith
    field_simp
    ring
  rw [e, abs_mul, abs_of_nonneg (sub_nonneg.2 h), abs_div, abs_of_pos (show (0 : ℝ) < n * (n - 1) by nlinarith)]
  have h1 : |(i : ℝ) - (n - 1) / 2| ≤ (n - 1) / 2 := by
    rw [abs_le]
    constructor <;> linarith
  have h2 : |(i : ℝ) - (n - 1) / 2| / (n * (n - 1)) ≤ 1 / (2 * n) := by
    rw [div_le_div_iff₀ (by nlinarith) (by linarith)]
    nlinarith
  calc _ ≤ 1 / (2 * (n : ℝ)) * (hi - lo) := mul_le_mul_of_nonneg_right h2 (sub_nonneg.2 h)
    _ = _ := by ring

/-- **C116 (partial)** `plot_scalar` on a square grid: for every set of data and every interpolation, the picture covers the bounding box of the data
with `n` rows and `n` columns of pixels, and every pixel shows the interpolated field at a point of the box not further from its centre than half a
pixel in both directions.  Missing: grids with different numbers of points, see `C116_not_square`. -/
theorem C116_square_partial (f : ℝ → ℝ → ℝ) {x y : List ℝ} {x0 x1 y0 y1 : ℝ} (hx0 : x.min? = some x0) (hx1 : x.max? = some x1)
    (hy0 : y.min? = some y0) (hy1 : y.max? = some y1) {n : ℕ} (hn : 2 ≤ n) :
    ∃ img, plotScalar f x y n n = some img ∧ (img.xMin = x0 ∧ img.xMax = x1 ∧ img.yMin = y0 ∧ img.yMax = y1) ∧ img.rows.length = n ∧
      ∀ r c, r < n → c < n → ∃ u v, pixel img r c = some (f u v) ∧ (x0 ≤ u ∧ u ≤ x1 ∧ |u - pixelAt x0 x1 n c| ≤ (x1 - x0) / (2 * n)) ∧
        (y0 ≤ v ∧ v ≤ y1 ∧ |v - pixelAt y0 y1 n r| ≤ (y1 - y0) / (2 * n)) := by
  obtain ⟨img, h1, h2, h3, h4⟩ := plotScalar_pixel f hx0 hx1 hy0 hy1 n n
  have hbox : ∀ {lo hi : ℝ} {i : ℕ}, lo ≤ hi → i < n → lo ≤ gridAt lo hi n i ∧ gridAt lo hi n i ≤ hi := by
    intro lo hi i h hi'
    have hn' : (2 : ℝ) ≤ n := by exact_mod_cast hn
    have hi1 : (i : ℝ) + 1 ≤ n := by exact_mod_cast hi'
    have hi0 : (0 : ℝ) ≤ i := Nat.cast_nonneg i
    have ha : 0 ≤ (i : ℝ) / (n - 1) := div_nonneg hi0 (by linarith)
    have hb : (i : ℝ) / (n - 1) ≤ 1 := by rw [div_le_one (by linarith)]; linarith
    unfold gridAt
    constructor
    · nlinarith
    · nlinarith
  have hx : x0 ≤ x1 := (List.min?_eq_some_iff.1 hx0).2 _ (List.max?_eq_some_iff.1 hx1).1
  have hy : y0 ≤ y1 := (List.min?_eq_some_iff.1 hy0).2 _ (List.max?_eq_some_iff.1 hy1).1
  refine ⟨img, h1, h2, h3, ?_⟩
  intro r c hr hc
  exact ⟨_, _, h4 r c r c hr hc hr hc rfl, ⟨(hbox hx hc).1, (hbox hx hc).2, gridAt_near hx hn hc⟩,
    (hbox hy hr).1, (hbox hy hr).2, gridAt_near hy hn hr⟩

/-- **C116 fails on every grid that is not square**: the array is reshaped to `(nx, ny)` instead of `(ny, nx)`, so that either the field `y` is drawn
with different colours in a row of pixels, or the field `x` is drawn with different colours in a column. -/
theorem C116_not_square {nx ny : ℕ} (hx : 2 ≤ nx) (hy : 2 ≤ ny) (hne : nx ≠ ny) :
    (∃ img, plotScalar (fun _ v => v) [0, 1] [0, 1] nx ny = some img ∧ ∃ r c c' a b, pixel img r c = some a ∧ pixel img r c' = some b ∧ a ≠ b) ∨
    ∃ img, plotScalar (fun u _ => u) [0, 1] [0, 1] nx ny = some img ∧ ∃ r r' c a b, pixel img r c = some a ∧ pixel img r' c = some b ∧ a ≠ b := by
  have h0 : ([0, 1] : List ℝ).min? = some 0 := by simp [List.min?]
  have h1 : ([0, 1] : List ℝ).max? = some 1 := by simp [List.max?]
  have hd : ∀ {n k : ℕ}, 2 ≤ n → 0 < k → gridAt 0 1 n 0 ≠ gridAt 0 1 n k := by
    intro n k hn hk
    have hn' : (2 : ℝ) ≤ n := by exact_mod_cast hn
    have hk' : (0 : ℝ) < k := by exact_mod_cast hk
    have : 0 < (k : ℝ) / (n - 1) := div_pos hk' (by linarith)
    unfold gridAt
    simp only [CharP.cast_eq_zero, zero_div, zero_mul, zero_add, sub_zero, mul_one]
    exact this.ne
  rcases lt_or_gt_of_ne hne with h | h
  · left
    obtain ⟨img, e1, -, -, e4⟩ := plotScalar_pixel (fun _ v => v) h0 h1 h0 h1 nx ny
    exact ⟨img, e1, 0, 0, nx, _, _, e4 0 0 0 0 (by omega) (by omega) (by omega) (by omega) (by ring),
      e4 0 nx 1 0 (by omega) h (by omega) (by omega) (by ring), hd hy one_pos⟩
  · right
    obtain ⟨img, e1, -, -, e4⟩ := plotScalar_pixel (fun u _ => u) h0 h1 h0 h1 nx ny
    exact ⟨img, e1, 0, 1, 0, _, _, e4 0 0 0 0 (by omega) (by omega) (by omega) (by omega) (by ring),
      e4 1 0 0 ny (by omega) (by omega) (by omega) h (by ring), hd hx (by omega)⟩

/-- A concrete case of `C116_square_partial`: the default grid. -/
example : ∃ img, plotScalar (fun u v => u + v) [0, 2, 1] [3, 5, 5] 200 200 = some img ∧ img.xMax = 2 ∧ img.yMin = 3 ∧ img.rows.length = 200 := by
  obtain ⟨img, h1, h2, h3, -⟩ := C116_square_partial (fun u v => u + v) (x := [0, 2, 1]) (y := [3, 5, 5]) (x0 := 0) (x1 := 2) (y0 := 3) (y1 := 5)
    (by simp [List.min?]) (by simp [List.max?]) (by simp [List.min?]; norm_num) (by simp [List.max?]; norm_num) (n := 200) (by norm_num)
  exact ⟨img, h1, h2.2.1, h2.2.2.1, h3⟩

end Verif.Props
